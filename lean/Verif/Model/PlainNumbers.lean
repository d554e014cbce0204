import Verif.Model.Float
import Verif.Model.Reduced

/-!
# Plain Python numbers as control values

`ReducedFunctional.__call__` accepts `int` and `float` values for `AdjFloat` controls, but the converted value of
`reduced_functional.py:215` is only bound to the loop variable, so that `Control.update` stores the number as it was
given.  This file models the Python type of every stored value, and the exceptions that depend on it.

Not modelled: overflow, infinities, NaN; `bool` counts as `int`, and subclasses of `float` such as `numpy.float64`
as `float`.
-/

namespace Pyadjoint

/-- The Python type of a number: `int`, `float`, `AdjFloat`.  Types distinguished by `reduced_functional.py:214-216` and `adjfloat.py:48`. -/
inductive Kind | int | float | adj
  deriving DecidableEq

/-- A number with its type.  See `adjfloat.py:48`. -/
structure PyNum where
  kind : Kind
  val : ℝ

/-- Block variables that hold Python numbers; derivative values carry their type too.  `block_variable.py:4-22`. -/
abbrev PHeap := Heap PyNum PyNum PyNum

/-- The exceptions of an evaluation.  `complexResult` is the `TypeError` of `AdjFloat(z)` for a complex `z`
(`adjfloat.py:96-97`). -/
inductive NumErr | typeError | attributeError | zeroDivision | valueError | complexResult
  deriving DecidableEq

/-- The blocks that derive from `FloatOperatorBlock` (`adjfloat.py:329-616`). -/
def FBlock.isOperator : FBlock → Bool
  | .un .neg _ _ => true
  | .un _ _ _ => false
  | .bin .min _ _ _ | .bin .max _ _ _ => false
  | .bin _ _ _ _ => true

/-- `float.__add__` and so on (`adjfloat.py:353`, `435`, `458`, `486`, `517`): the first argument has to be a float, the
second may be an `int`.  A power of a negative number with a fractional exponent is complex. -/
noncomputable def floatMethod (op : BOp) (x y : PyNum) : Except NumErr ℝ :=
  if x.kind = .int then .error .typeError else
  match op with
  | .div => if y.val = 0 then .error .zeroDivision else .ok (op.val x.val y.val)
  | .pow =>
    if x.val = 0 ∧ y.val < 0 then .error .zeroDivision
    else open Classical in if x.val < 0 ∧ ¬ ∃ n : ℤ, y.val = n then .error .complexResult
    else .ok (op.val x.val y.val)
  | _ => .ok (op.val x.val y.val)

/-- `self._outputs[0].saved_output._ad_convert_type(output)` (`adjfloat.py:346`): a plain number has no such method. -/
noncomputable def convertOutput (h : PHeap) (o : BV) (r : Except NumErr ℝ) : Except NumErr PyNum :=
  match r with
  | .error e => .error e
  | .ok v => if (saved h o).kind = .adj then .ok ⟨.adj, v⟩ else .error .attributeError

/-- `recompute_component` of the `AdjFloat` blocks (`adjfloat.py:203-204`, `228-229`, `298-299`, `324-326`, `344-346`).
`math.exp` and `math.log` take any number and return a `float`; Python's `min` and `max` return one of their arguments
as it is. -/
noncomputable def FBlock.recomputeNum (b : FBlock) (h : PHeap) : Except NumErr PyNum :=
  match b with
  | .un .neg a o => convertOutput h o
      (if (saved h a).kind = .int then .error .typeError else .ok (-(saved h a).val))
  | .un .exp a _ => .ok ⟨.float, Real.exp (saved h a).val⟩
  | .un .log a _ =>
    if (saved h a).val ≤ 0 then .error .valueError else .ok ⟨.float, Real.log (saved h a).val⟩
  | .bin .min a b _ => .ok (if (saved h b).val < (saved h a).val then saved h b else saved h a)
  | .bin .max a b _ => .ok (if (saved h b).val > (saved h a).val then saved h b else saved h a)
  | .bin op a b o => convertOutput h o (floatMethod op (saved h a) (saved h b))

/-- `Block.recompute` (`block.py:330-363`). -/
noncomputable def FBlock.pyRecompute (b : FBlock) (h : PHeap) : Except NumErr PHeap :=
  if (h b.out).isControl then .ok h else
  match b.recomputeNum h with
  | .error e => .error e
  | .ok r => .ok (setCkpt h b.out (some r))

/-- The replay loop (`reduced_functional.py:236-244`), with the state it ends or stops in. -/
noncomputable def pyReplay : List FBlock → PHeap → PHeap × Option NumErr
  | [], h => (h, none)
  | b :: t, h =>
    match b.pyRecompute h with
    | .error e => (h, some e)
    | .ok h => pyReplay t h

/-- The state part of `ReducedFunctional.__call__` (`reduced_functional.py:208-244`) for `AdjFloat` controls and numbers as
values, without checkpoint manager. -/
noncomputable def pyEval (t : FTape) (cs : List BV) (xs : List PyNum) (h : PHeap) : PHeap × Option NumErr :=
  let h := markControls cs true (updateControls cs xs h)
  let r := pyReplay t h
  (markControls cs false r.1, r.2)

/-- The numbers alone.  (Not in the code: relates two models.) -/
def eraseKinds (h : PHeap) : FHeap := fun v =>
  { output := (h v).output.val, adj := (h v).adj.map PyNum.val, tlm := (h v).tlm.map PyNum.val
    hess := (h v).hess.map PyNum.val, ckpt := (h v).ckpt.map PyNum.val, isControl := (h v).isControl, marked := (h v).marked
    creation := (h v).creation, lastUse := (h v).lastUse }

end Pyadjoint
