import Verif.Model.Reduced

/-!
# `Enlist` and the calling interface of the drivers and of `ReducedFunctional`

Models `pyadjoint/enlisting.py`, the list handling of `pyadjoint/drivers.py` and of
`pyadjoint/reduced_functional.py`, with the exceptions they raise.
-/

namespace Pyadjoint

variable {V T A : Type*}

/-- The exceptions of the calling interface: `ValueError`, `TypeError`, `IndexError`,
`AssertionError`.  Raised at `reduced_functional.py:132-158, 209-226`, `control.py`, `drivers.py`, `enlisting.py:6-14`. -/
inductive ApiErr | valueError | typeError | indexError | assertionError
  deriving DecidableEq

/-- `Enlist` (`enlisting.py:1-4`): a list that knows whether its argument was a list. -/
structure Enlist (α : Type*) where
  listed : Bool
  items : List α

/-- The arguments users pass: a single object, a list, a tuple, or an `Enlist`, which is a list.  `enlisting.py:1-5`. -/
inductive Arg (α : Type*)
  | single (a : α)
  | list (l : List α)
  | tuple (l : List α)
  | enlist (e : Enlist α)

/-- What a driver returns: one object or a list.  `enlisting.py:6-14`. -/
inductive Ret (α : Type*)
  | one (a : α)
  | many (l : List α)
  deriving DecidableEq

/-- `Enlist.__init__` (`enlisting.py:2-4`).  `Enlist` is a subclass of `list`, so that enlisting an
`Enlist` gives a listed one. -/
def Enlist.of : Arg α → Enlist α
  | .single a => ⟨false, [a]⟩
  | .list l => ⟨true, l⟩
  | .tuple l => ⟨true, l⟩
  | .enlist e => ⟨true, e.items⟩

/-- `Enlist.delist(y)` (`enlisting.py:6-12`). -/
def Enlist.delist (e : Enlist α) (y : List β) : Except ApiErr (Ret β) :=
  if e.listed then .ok (.many y) else
  match y with
  | [b] => .ok (.one b)
  | _ => .error .assertionError

/-- `Enlist.delist()` without argument (`enlisting.py:7`): `y = self`. -/
def Enlist.delistSelf (e : Enlist α) : Except ApiErr (Ret α) := e.delist e.items

/-- `compute_gradient` with its list handling (`drivers.py:5-33`): `m = Enlist(m)` on line 24, and
`m.delist(grads)` on line 33. -/
def computeGradientApi [Add A] [Zero A] (bs : Blocks V T A) (J : BV) (m : Arg BV) (adjValue : A)
    (h : Heap V T A) : Except ApiErr (Ret A) × Heap V T A :=
  let e := Enlist.of m
  let r := computeGradient bs J e.items adjValue h
  (e.delist r.1, r.2)

/-- The attributes of a `ReducedFunctional` (`reduced_functional.py:81-110`) used here: functional, the
controls as given to the constructor, `derivative_components` and `scale`.  User callbacks are in
`Verif.Model.Callbacks`. -/
structure RF (S : Type*) where
  J : BV
  controls : Arg BV
  components : Option (List Int) := none
  scale : S

/-- `self.controls` (`reduced_functional.py:94`). -/
def RF.enlisted {S : Type*} (rf : RF S) : Enlist BV := Enlist.of rf.controls

/-- Indexing of a Python list (used on `reduced_functional.py:14`): negative indices count from the end,
`none` is the `IndexError`. -/
def pyIndex (l : List α) (i : Int) : Option α :=
  if 0 ≤ i then l[i.toNat]? else
  if 0 ≤ l.length + i then l[(l.length + i).toNat]? else none

/-- `extract_derivative_components` (`reduced_functional.py:13-16`). -/
def extractComponents (cs : List BV) (is : List Int) : Option (List BV) :=
  is.mapM (pyIndex cs)

/-- `pack_derivative_components` (`reduced_functional.py:26-36`), the loop over the controls from index
`i` with counter `count`; `none` is the `IndexError` of line 31.  The zero of line 33-34 is the
control's value times `0.`, modelled as `0`. -/
def packLoop [Zero A] (is : List Int) (ds : List A) : List BV → Nat → Nat → Option (List A)
  | [], _, _ => some []
  | _ :: cs, i, count =>
    if (i : Int) ∈ is then
      match ds[count]?, packLoop is ds cs (i + 1) (count + 1) with
      | some d, some r => some (d :: r)
      | _, _ => none
    else (packLoop is ds cs (i + 1) count).map (0 :: ·)

/-- `pack_derivative_components` (`reduced_functional.py:26-36`) on the constructor's argument: a single
`Control` is not iterable (line 29). -/
def packComponents [Zero A] (controls : Arg BV) (is : List Int) (ds : List A) :
    Except ApiErr (List A) :=
  match controls with
  | .single _ => .error .typeError
  | .list l | .tuple l | .enlist ⟨_, l⟩ =>
    match packLoop is ds l 0 0 with
    | none => .error .indexError
    | some r => .ok r

/-- `if not derivatives: raise ValueError` and the final `delist` (`reduced_functional.py:155-160`). -/
def finishDerivative (e : Enlist BV) (ds : List A) : Except ApiErr (Ret A) :=
  if ds.isEmpty then .error .valueError else e.delist ds

/-- `ReducedFunctional.derivative` (`reduced_functional.py:112-160`) with `derivative_components`.  An
empty tuple of components is treated as none given (line 103). -/
def RF.derivative [Add A] [Zero A] [Mul A] (rf : RF A) (bs : Blocks V T A) (adjInput : A)
    (h : Heap V T A) : Except ApiErr (Ret A) × Heap V T A :=
  let e := rf.enlisted
  match rf.components with
  | none | some [] =>
    if e.items.isEmpty then (.error .valueError, h) else
    let r := computeGradient bs rf.J e.items (adjInput * rf.scale) h
    (finishDerivative e r.1, r.2)
  | some is =>
    match extractComponents e.items is with
    | none => (.error .indexError, h)
    | some sel =>
      let r := computeGradient bs rf.J sel (adjInput * rf.scale) h
      match packComponents rf.controls is r.1 with
      | .error x => (.error x, r.2)
      | .ok ds => (finishDerivative e ds, r.2)

/-- `ReducedFunctional.__call__` (`reduced_functional.py:193-254`) with its list handling; type checks are
in `Verif.Model.PlainNumbers`, callbacks are in `Verif.Model.Callbacks`. -/
def RF.call [Mul V] (rf : RF V) (bs : Blocks V T A) (values : Arg V) (h : Heap V T A) :
    Except ApiErr (V × Heap V T A) :=
  match rfCall bs rf.J rf.enlisted.items rf.scale (Enlist.of values).items h with
  | none => .error .valueError
  | some r => .ok r

end Pyadjoint
