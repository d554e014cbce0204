import Verif.Model.ReducedApi
import Verif.Model.SecondOrder

/-!
# The callbacks of `ReducedFunctional`

Models `reduced_functional.py:81-254` with the six user callbacks.  A callback is an arbitrary Python function: it can read and change
everything, it can raise, and what it did before raising stays done.

Simplifications: values and adjoint values have the same type `R`; the callbacks return lists where the documentation asks for lists; type checks
of the values are in `Verif.Model.PlainNumbers`; the sweeps themselves do not raise here (for that see `Verif.Model.CrashEval` and
`Verif.Model.CrashHess`); no checkpoint manager.
-/

namespace Pyadjoint
namespace Cb

/-- What Python functions work on: the block variables, the blocks of the tape, whether annotation is on (`tape.py:15`), and everything else that
belongs to the user's program. -/
structure World (σ R T : Type*) where
  heap : Heap R T R
  blocks : Blocks R T R
  enabled : Bool
  user : σ

/-- An exception of pyadjoint, or one of the user's.  `reduced_functional.py:112-254`. -/
inductive Err
  | api (e : ApiErr)
  | user (n : Nat)
  deriving DecidableEq

/-- A Python function: what it returns or raises, and the world it leaves in both cases.
Type of the callbacks and methods of `reduced_functional.py:84-102`. -/
abbrev Fn (σ R T α : Type*) := World σ R T → Except Err α × World σ R T

variable {σ R T α : Type*}

/-- The callbacks given to the constructor (`reduced_functional.py:84-89`).  `derivative_cb_pre` and `derivative_cb_post` return lists, the
other results are dropped. -/
structure Callbacks (σ R T : Type*) where
  evalPre : Ret R → Fn σ R T Unit
  evalPost : R → Ret R → Fn σ R T Unit
  derivativePre : List BV → Fn σ R T (List BV)
  derivativePost : Option R → List R → List R → Fn σ R T (List R)
  hessianPre : Ret R → Fn σ R T Unit
  hessianPost : Option R → Ret R → Ret R → Fn σ R T Unit

/-- The default arguments (`reduced_functional.py:84-89`). -/
def Callbacks.default : Callbacks σ R T where
  evalPre _ w := (.ok (), w)
  evalPost _ _ w := (.ok (), w)
  derivativePre cs w := (.ok cs, w)
  derivativePost _ ds _ w := (.ok ds, w)
  hessianPre _ w := (.ok (), w)
  hessianPost _ _ _ w := (.ok (), w)

/-- A computation of pyadjoint that returns or raises without changing anything.  For the calls at `reduced_functional.py:143-147, 184`. -/
def ofApi : Except ApiErr α → Fn σ R T α
  | .error e, w => (.error (.api e), w)
  | .ok a, w => (.ok a, w)

/-- `_get_extract_derivative_components` (`reduced_functional.py:8-17`) as a callback. -/
def extractCallback (is : List Int) (cs : List BV) : Fn σ R T (List BV) :=
  ofApi (match extractComponents cs is with
    | none => .error .indexError
    | some sel => .ok sel)

/-- `_get_pack_derivative_components` (`reduced_functional.py:20-37`) as a callback. -/
def packCallback [Zero R] (controls : Arg BV) (is : List Int) (ds : List R) : Fn σ R T (List R) :=
  ofApi (packComponents controls is ds)

/-- The callbacks after the constructor (`reduced_functional.py:97-110`): derivative components replace the derivative callbacks. -/
def Callbacks.init [Zero R] (cb : Callbacks σ R T) (rf : RF R) : Callbacks σ R T :=
  match rf.components with
  | none | some [] => cb
  | some is => { cb with derivativePre := extractCallback is, derivativePost := fun _ ds _ => packCallback rf.controls is ds }

/-- The decorator `no_annotations` (`tape.py:133`): `stop_annotating` around the call, which restores the flag also after an
exception (`tape.py:113-130`). -/
def noAnnotations (f : Fn σ R T α) : Fn σ R T α := fun w =>
  let r := f { w with enabled := false }
  (r.1, { r.2 with enabled := w.enabled })

/-- One function after another; an exception ends both.  Python's sequential execution, as in `reduced_functional.py:128-160`. -/
def Fn.bind {β : Type*} (f : Fn σ R T α) (g : α → Fn σ R T β) : Fn σ R T β := fun w =>
  match f w with
  | (.error e, w) => (.error e, w)
  | (.ok a, w) => g a w

/-- `ReducedFunctional.__call__` (`reduced_functional.py:193-254`). -/
def callFn [Mul R] (rf : RF R) (cb : Callbacks σ R T) (values : Arg R) : Fn σ R T R := noAnnotations fun w =>
  let xs := (Enlist.of values).items
  let cs := rf.enlisted.items
  if xs.length ≠ cs.length then (.error (.api .valueError), w) else
  (ofApi (rf.enlisted.delist xs)).bind (fun arg =>
    (cb.evalPre arg).bind (fun _ w =>
      let w := { w with heap := rfEval w.blocks cs xs w.heap }
      let y := saved w.heap rf.J * rf.scale
      (cb.evalPost y arg).bind (fun _ w => (.ok y, w)) w)) w

/-- `ReducedFunctional.derivative` (`reduced_functional.py:112-160`).  The values are those before `derivative_cb_pre`; not decorated
with `no_annotations`. -/
def derivativeFn [Add R] [Zero R] [Mul R] (rf : RF R) (cb : Callbacks σ R T) (adjInput : R) : Fn σ R T (Ret R) := fun w =>
  let values := rf.enlisted.items.map (saved w.heap)
  (cb.derivativePre rf.enlisted.items).bind (fun sel w =>
    if sel.isEmpty then (.error (.api .valueError), w) else
    let r := computeGradient w.blocks rf.J sel (adjInput * rf.scale) w.heap
    let w := { w with heap := r.2 }
    (cb.derivativePost (w.heap rf.J).ckpt r.1 values).bind (fun ds => ofApi (finishDerivative rf.enlisted ds)) w) w

/-- `ReducedFunctional.hessian` (`reduced_functional.py:162-191`) with blocks that use the default sweeps.  More directions than controls is
an `IndexError` (`drivers.py:60-61`), raised after the resets of lines 55-56 and after the tangents of all controls were set. -/
def hessianFn [Add T] [Add R] [Zero R] (rf : RF R) (cb : Callbacks σ R T) (mDot : Arg T) : Fn σ R T (Ret R) := noAnnotations fun w =>
  let cs := rf.enlisted.items
  let ds := (Enlist.of mDot).items
  (ofApi (rf.enlisted.delist (cs.map (saved w.heap)))).bind (fun values =>
    (cb.hessianPre values).bind (fun _ w =>
      if cs.length < ds.length then
        (.error (.api .indexError),
          { w with heap := seedTlm cs ds (resetVariables w.blocks .hessian (resetVariables w.blocks .tlm w.heap)) }) else
      let r := computeHessianOf w.blocks rf.J cs ds w.heap
      let w := { w with heap := r.2 }
      (ofApi (rf.enlisted.delist r.1)).bind (fun out =>
        (cb.hessianPost (w.heap rf.J).ckpt out values).bind (fun _ w => (.ok out, w))) w)) w

/-- What a user asks of a reduced functional.  The methods of `reduced_functional.py:112, 163, 194`. -/
inductive Request (R T : Type*)
  | call (values : Arg R)
  | derivative (adjInput : R)
  | hessian (mDot : Arg T)

/-- What the user gets.  The results of `reduced_functional.py:160, 191, 254`. -/
inductive Answer (R : Type*)
  | value (y : R)
  | derivatives (r : Ret R)
  | raised (e : Err)

/-- A function's result as the user gets it.  (Not in the code: what the calling program sees.) -/
def Fn.answer (k : α → Answer R) (f : Fn σ R T α) (w : World σ R T) : Answer R × World σ R T :=
  match f w with
  | (.error e, w) => (.raised e, w)
  | (.ok a, w) => (k a, w)

/-- One request.  `reduced_functional.py:112-254`. -/
def Request.run [Add T] [Add R] [Zero R] [Mul R] (rf : RF R) (cb : Callbacks σ R T) (w : World σ R T) :
    Request R T → Answer R × World σ R T
  | .call values => (callFn rf cb values).answer .value w
  | .derivative a => (derivativeFn rf cb a).answer .derivatives w
  | .hessian d => (hessianFn rf cb d).answer .derivatives w

/-- A program that asks one request after another, going on after exceptions.  (The user's program, not in the code.) -/
def runAll [Add T] [Add R] [Zero R] [Mul R] (rf : RF R) (cb : Callbacks σ R T) :
    List (Request R T) → World σ R T → List (Answer R) × World σ R T
  | [], w => ([], w)
  | q :: qs, w =>
    let r := q.run rf cb w
    let rest := runAll rf cb qs r.2
    (r.1 :: rest.1, rest.2)

end Cb
end Pyadjoint
