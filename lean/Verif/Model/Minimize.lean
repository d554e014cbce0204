import Verif.Model.ReducedApi
import Verif.Model.Float

/-!
# `ReducedFunctional.hessian`, `ReducedFunctionalNumPy`, `minimize` and `maximize`

Models `reduced_functional.py:162-191`, `reduced_functional_numpy.py` and the parts of
`optimization/optimization.py` that decide which function the optimiser sees.
-/

namespace Pyadjoint

/-- `ReducedFunctional.hessian` (`reduced_functional.py:162-191`) with `compute_hessian`
(`drivers.py:36-75`) and its list handling: more directions than controls is an `IndexError` on line
60; a `TypeError` can come from a block.  Callbacks are in `Verif.Model.Callbacks`.  The state after an exception is
not modelled. -/
noncomputable def RF.hessian (rf : RF ℝ) (t : FTape) (mDot : Arg ℝ) (h : FHeap) :
    Except ApiErr (Ret ℝ × FHeap) :=
  let e := rf.enlisted
  let ds := (Enlist.of mDot).items
  if e.items.length < ds.length then .error .indexError else
  match t.computeHessian rf.J e.items ds h with
  | .error .typeError => .error .typeError
  | .ok (r, h') =>
    match e.delist r with
    | .error x => .error x
    | .ok r => .ok (r, h')

/-- How the values of one control type are laid out in a flat array: `_ad_assign_numpy` reads `size`
entries at the offset and advances it, `_ad_to_list` gives the entries back
(`overloaded_type.py:319-360`).  `decode` is `none` where the type's method raises. -/
structure Codec (V E : Type*) where
  size : Nat
  decode : List E → Option V
  encode : V → List E

/-- What `_ad_assign_numpy` and `_ad_to_list` must satisfy to be inverse to each other.
(Not in the code: the documented contract at `overloaded_type.py:320-362`.) -/
structure Codec.Lawful {V E : Type*} (c : Codec V E) : Prop where
  length_encode : ∀ v, (c.encode v).length = c.size
  decode_encode : ∀ v, c.decode (c.encode v) = some v
  encode_decode : ∀ l v, c.decode l = some v → c.encode v = l

/-- `AdjFloat._ad_assign_numpy` and `_ad_to_list` (`adjfloat.py:115-123`): `AdjFloat(src[o:o+1])` raises on
an empty slice. -/
def Codec.float {V : Type*} : Codec V V where
  size := 1
  decode l := match l with
    | [x] => some x
    | _ => none
  encode x := [x]

/-- `Control.assign_numpy` (`control.py:74-78`): the slice `src[offset:offset+size]` of a NumPy array, and
the new offset. -/
def Codec.assign {V E : Type*} (c : Codec V E) (src : List E) (offset : Nat) : Option (V × Nat) :=
  match c.decode ((src.drop offset).take c.size) with
  | none => none
  | some v => some (v, offset + c.size)

/-- `ReducedFunctionalNumPy.set_local` (`reduced_functional_numpy.py:38-43`): the loop over the controls
with the running offset.  The old values `m` only provide the type. -/
def setLocal {V E : Type*} (src : List E) : List (Codec V E) → Nat → Option (List V)
  | [], _ => some []
  | c :: cs, offset =>
    match c.assign src offset with
    | none => none
    | some (v, offset') => (setLocal src cs offset').map (v :: ·)

/-- `ReducedFunctionalNumPy.get_global` (`reduced_functional_numpy.py:45-55`) and the loops on lines
74-77 and 93-96: concatenation of the lists of the entries. -/
def getGlobal {V E : Type*} : List (Codec V E) → List V → List E
  | c :: cs, v :: vs => c.encode v ++ getGlobal cs vs
  | _, _ => []

/-- A reduced functional that works on flat arrays (`reduced_functional_numpy.py:21-29`).  Attribute
reads that fail on the wrapper are delegated to `self.rf`; attribute writes are not, so that the wrapper
may have an attribute `scale` of its own, which none of its methods reads. -/
structure NpRF (S : Type*) where
  rf : RF S
  ownScale : Option S := none

section Values
variable {V T A E : Type*}

/-- `ReducedFunctionalNumPy.__call__` (`reduced_functional_numpy.py:31-36`).  `rf.__call__` gets a list. -/
def NpRF.call [Mul V] (f : NpRF V) (codecs : List (Codec V E)) (bs : Blocks V T A) (src : List E)
    (h : Heap V T A) : Except ApiErr (V × Heap V T A) :=
  match setLocal src codecs 0 with
  | none => .error .typeError
  | some xs => f.rf.call bs (.list xs) h

/-- The list a driver's result is turned into by `Enlist(dJdm)` (`reduced_functional_numpy.py:71`). -/
def Ret.items {α : Type*} : Ret α → List α
  | .one a => [a]
  | .many l => l

/-- `ReducedFunctionalNumPy.derivative` (`reduced_functional_numpy.py:57-79`).  The argument `m_array` is
not used. -/
def NpRF.derivative [Add A] [Zero A] [Mul A] [One A] (f : NpRF A) (codecs : List (Codec A E))
    (bs : Blocks V T A) (_mArray : Option (List E)) (h : Heap V T A) :
    Except ApiErr (List E) × Heap V T A :=
  let r := f.rf.derivative bs 1 h
  (r.1.map fun d => getGlobal codecs d.items, r.2)

/-- `get_controls` (`reduced_functional_numpy.py:106-108`). -/
def NpRF.getControls {S : Type*} (f : NpRF S) (codecs : List (Codec V E)) (h : Heap V T A) : List E :=
  getGlobal codecs (f.rf.enlisted.items.map (saved h))

/-- `set_controls` (`reduced_functional_numpy.py:110-115`): writes the control variables, recomputes
nothing. -/
def NpRF.setControls {S : Type*} (f : NpRF S) (codecs : List (Codec V E)) (src : List E)
    (h : Heap V T A) : Except ApiErr (List V × Heap V T A) :=
  match setLocal src codecs 0 with
  | none => .error .typeError
  | some xs => .ok (xs, updateControls f.rf.enlisted.items xs h)

end Values

/-- `ReducedFunctionalNumPy.hessian` (`reduced_functional_numpy.py:81-101`): runs `derivative()` first,
ignores `m_array`, and afterwards resets the adjoint values of the tape `working`, the current working
tape. -/
noncomputable def NpRF.hessian (f : NpRF ℝ) (codecs : List (Codec ℝ ℝ)) (t working : FTape)
    (_mArray : Option (List ℝ)) (dir : List ℝ) (h : FHeap) : Except ApiErr (List ℝ × FHeap) :=
  let d := f.derivative codecs t.blocks none h
  match d.1 with
  | .error e => .error e
  | .ok _ =>
    match setLocal dir codecs 0 with
    | none => .error .typeError
    | some ds =>
      match f.rf.hessian t (.list ds) d.2 with
      | .error e => .error e
      | .ok (r, h') => .ok (getGlobal codecs r.items, resetVariables working.blocks .adjoint h')

/-- What users hand to `minimize`: a `ReducedFunctional` or a `ReducedFunctionalNumPy`.  `optimization.py:200-320`. -/
inductive Objective (S : Type*)
  | rf (r : RF S)
  | np (f : NpRF S)

/-- `rf.scale = scale` (`optimization.py:224`): an attribute write on the object given. -/
def Objective.setScale {S : Type*} (s : S) : Objective S → Objective S
  | .rf r => .rf { r with scale := s }
  | .np f => .np { f with ownScale := some s }

/-- `rf_np` (`optimization.py:225-232`). -/
def Objective.toNp {S : Type*} : Objective S → NpRF S
  | .rf r => { rf := r }
  | .np f => f

/-- `minimize(rf, method, scale)` (`optimization.py:199-255`), up to the call of the optimisation
algorithm: the object whose `__call__`, `derivative` and `hessian` the algorithm minimises, and what
became of the user's object. -/
def minimizeObjective {S : Type*} (o : Objective S) (scale : S) : NpRF S × Objective S :=
  let o := o.setScale scale
  (o.toNp, o)

/-- `maximize(rf, method, scale)` (`optimization.py:258-286`). -/
def maximizeObjective {S : Type*} [Neg S] (o : Objective S) (scale : S) : NpRF S × Objective S :=
  minimizeObjective o (-scale)

end Pyadjoint
