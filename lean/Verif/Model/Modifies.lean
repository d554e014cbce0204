import Mathlib.Data.Real.Basic
import Mathlib.Logic.Function.Basic

/-!
# The argument `modifies` of `stop_annotating`

Models `tape.py:94-130` with the argument as Python sees it: `None`, one overloaded object, or a list of them.  `Verif.Model.Contexts` has the nesting of
contexts and tapes with lists only; here the truth value that `__enter__` asks for is the one of the object.

Simplifications: one `stop_annotating` object; objects are numbers, arrays and others; the iterable is a list.
-/

namespace Pyadjoint
namespace Modifies

/-- An overloaded object, as far as `bool(obj)` is concerned: `AdjFloat` (`adjfloat.py:46`), `numpy_adjoint.ndarray` (`numpy_adjoint/array.py:8`), and
objects without `__bool__` and `__len__`. -/
inductive Obj
  | float (x : ℝ)
  | array (xs : List ℝ)
  | other

/-- `bool(obj)`; `none` is the `ValueError` of NumPy for arrays with several entries.  An empty array is false (with a warning; NumPy 2.2 and later
raise).  Called at `tape.py:115`. -/
noncomputable def Obj.truth : Obj → Option Bool
  | .float x => some (decide (x ≠ 0))
  | .array [] => some false
  | .array [x] => some (decide (x ≠ 0))
  | .array (_ :: _ :: _) => none
  | .other => some true

/-- The argument `modifies` (`tape.py:107-108`): `None`, an object, or a list of objects. -/
inductive Arg
  | nothing
  | one (v : Nat)
  | list (vs : List Nat)

/-- The objects named. -/
def Arg.vars : Arg → List Nat
  | .nothing => []
  | .one v => [v]
  | .list vs => vs

/-- The flag (`tape.py:13`), `_orig_annotation_enabled` of the context manager (`tape.py:111`), the objects and their block variables
(`overloaded_type.py:108-142`). -/
structure World where
  enabled : Bool
  stack : List Bool
  obj : Nat → Obj
  ref : Nat → Option Nat

/-- `bool(self.modifies)` (`tape.py:115`). -/
noncomputable def Arg.truth (w : World) : Arg → Option Bool
  | .nothing => some false
  | .one v => (w.obj v).truth
  | .list vs => some (!vs.isEmpty)

/-- The two ways in which entering raises: the `ValueError` of `tape.py:116-118`, and the one of NumPy. -/
inductive Err
  | nested
  | ambiguous
  deriving DecidableEq

/-- `__enter__` (`tape.py:113-120`). -/
noncomputable def enter (m : Arg) (w : World) : Except Err World :=
  match m.truth w with
  | none => .error .ambiguous
  | some b =>
    if b && !w.stack.isEmpty then .error .nested
    else .ok { w with stack := w.enabled :: w.stack, enabled := false }

/-- `clear_block_variable` (`overloaded_type.py:137-138`). -/
def clear (w : World) (v : Nat) : World := { w with ref := Function.update w.ref v none }

/-- `__exit__` (`tape.py:122-130`): one object has the method, a list raises `AttributeError` and is gone through. -/
def exit (m : Arg) (w : World) : World :=
  let w := { w with enabled := w.stack.headD w.enabled, stack := w.stack.tail }
  match m with
  | .nothing => w
  | .one v => clear w v
  | .list vs => vs.foldl clear w

/-- `with stop_annotating(modifies=m): body`; `body` may raise (`false`), which does not matter to `__exit__` (`tape.py:122`). -/
noncomputable def withModifies (m : Arg) (body : World → World × Bool) (w : World) : Except Err (World × Bool) :=
  match enter m w with
  | .error e => .error e
  | .ok w => let r := body w; .ok (exit m r.1, r.2)

end Modifies
end Pyadjoint
