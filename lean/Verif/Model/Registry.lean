import Mathlib.Logic.Function.Basic

/-!
# The registry of overloaded types

`overloaded_type.py:1-65`.
-/

namespace Pyadjoint.Registry

/-- A Python class.  See `overloaded_type.py:5-65`. -/
abbrev Cls := Nat

/-- A Python object: its class `type(obj)` and what is in it.  See `overloaded_type.py:12-39`. -/
structure PyObj where
  cls : Cls
  data : Nat
deriving DecidableEq

/-- What the interpreter knows: which classes are subclasses of `OverloadedType`, the tuple `__bases__` of a class, and what `_ad_init_object` of a class
returns.  `overloaded_type.py:12-65, 114-127`. -/
structure World where
  isOverloaded : Cls → Bool
  bases : Cls → List Cls
  init : Cls → PyObj → PyObj

/-- The dictionary `_overloaded_types` (line 5).  `overloaded_type.py:5`. -/
abbrev Reg := Cls → Option Cls

/-- The argument `classes` of `register_overloaded_type`: `None`, one class, or a list or tuple of such arguments.
`overloaded_type.py:42-65`. -/
inductive Classes
  | default
  | one (c : Cls)
  | many (l : List Classes)

mutual
/-- `register_overloaded_type` (lines 42-65).  The flag is `true` if `overloaded_type.__bases__[1]` raises `IndexError`; registrations made before that
remain.  `overloaded_type.py:42-65`. -/
def register (w : World) (ot : Cls) (cl : Classes) (r : Reg) : Reg × Bool :=
  match cl with
  | .many l => registerMany w ot l r
  | .default =>
    match (w.bases ot)[1]? with
    | none => (r, true)
    | some c => (Function.update r c (some ot), false)
  | .one c => (Function.update r c (some ot), false)

/-- The loop of lines 59-60.  `overloaded_type.py:59-60`. -/
def registerMany (w : World) (ot : Cls) (l : List Classes) (r : Reg) : Reg × Bool :=
  match l with
  | [] => (r, false)
  | cl :: l =>
    match register w ot cl r with
    | (r, true) => (r, true)
    | (r, false) => registerMany w ot l r
end

/-- `get_overloaded_class` (lines 8-9); `none` is `KeyError`.  `overloaded_type.py:8-9`. -/
def getOverloadedClass (r : Reg) (c : Cls) : Option Cls := r c

/-- `create_overloaded_object` (lines 12-39).  The flag says whether a warning was issued.  `overloaded_type.py:12-39`. -/
def create (w : World) (r : Reg) (suppress : Bool) (o : PyObj) : PyObj × Bool :=
  if w.isOverloaded o.cls then (o, false) else
  match r o.cls with
  | some ot => (w.init ot o, false)
  | none => (o, !suppress)

end Pyadjoint.Registry
