import Verif.Model.SecondOrder
import Verif.Model.Reduced

/-!
# Copies of pyadjoint objects made by `copy` and `pickle`

The classes of pyadjoint define no `__copy__`, `__deepcopy__` or `__reduce__`, so `copy.copy`, `copy.deepcopy` and `pickle` use Python's protocol: create
an instance without calling `__init__`, look up `__setstate__` on it, restore its attributes, and append the items of a list subclass.  Three classes
interact with that protocol: `Control` (`pyadjoint/control.py:110-111`) and `ReducedFunctionalNumPy` (`pyadjoint/reduced_functional_numpy.py:27-28`)
define `__getattr__`, and `TimeStepSequence` (`pyadjoint/tape.py:861-896`) is a list whose `append` is overridden.
-/

namespace Pyadjoint
namespace Copying

/-! ## Looking up attributes -/

/-- A class: the names found on the class (methods, properties and what `object` provides), and for a class with
`def __getattr__(self, item): return getattr(self.d, item)` the name `d` (`control.py:110-111`: `control`; `reduced_functional_numpy.py:27-28`: `rf`). -/
structure PyClass where
  attrs : String → Bool
  forward : Option String

/-- An object: its class and its `__dict__`.  `control.py:39-40`, `reduced_functional_numpy.py:25`. -/
structure PyObject where
  cls : PyClass
  dict : String → Option Nat

/-- What a failed lookup raises: `AttributeError` from `object.__getattribute__`, or `RecursionError` when the calls of `__getattr__`
(`control.py:111`) nest deeper than the interpreter allows. -/
inductive AttrErr | attributeError | recursionError
  deriving DecidableEq

/-- What a lookup finds: an entry of `__dict__`, or an attribute of the class, bound to the object whose class it is.
(`getattr(self.control, item)` of `control.py:111` gives methods bound to `self.control`.) -/
inductive Found | value (v : Nat) | bound (self : Nat)
  deriving DecidableEq

/-- `getattr(o, name)` with `n` levels of recursion left (`control.py:110-111`, `reduced_functional_numpy.py:27-28`): the instance's
`__dict__` and the class first, then `__getattr__`, whose `self.d` is itself a lookup on `o`.
Simplification: a property and a plain attribute of the same name are not told apart (no class here has both). -/
def getAttr (σ : Nat → PyObject) : Nat → Nat → String → Except AttrErr Found
  | 0, _, _ => .error .recursionError
  | n + 1, o, name =>
    match (σ o).dict name with
    | some v => .ok (.value v)
    | none =>
      if (σ o).cls.attrs name then .ok (.bound o) else
      match (σ o).cls.forward with
      | none => .error .attributeError
      | some d =>
        match getAttr σ n o d with
        | .error e => .error e
        | .ok (.bound _) => .error .attributeError
        | .ok (.value c) => getAttr σ n c name

/-! ## Copying an object -/

/-- What comes out of a copy: a new object of the class of the original, or whatever a copying method bound to the object `self` returns. -/
inductive Copy | object (σ : Nat → PyObject) (new : Nat) | madeBy (self : Nat)

/-- `new` after the attributes of `x` were restored on it, the entries being copied by `κ` (the identity for `copy.copy`, the memo for
`copy.deepcopy` and `pickle`).  State of `control.py:39-40`, `reduced_functional_numpy.py:25`. -/
def withState (σ : Nat → PyObject) (κ : Nat → Nat) (x new : Nat) : Nat → PyObject :=
  Function.update σ new { cls := (σ x).cls, dict := fun s => ((σ x).dict s).map κ }

/-- `copy._reconstruct` and `pickle`'s BUILD for an object with attributes: a bare instance, the lookup of `__setstate__` on it, the attributes.
`overloaded_type.py:89-98` is the one `__setstate__` in the package; it restores the attributes too.  Called on objects of the classes of
`control.py:5`, `reduced_functional_numpy.py:11`, `block_variable.py:4`, `reduced_functional.py:40`. -/
def reconstruct (limit : Nat) (σ : Nat → PyObject) (κ : Nat → Nat) (x new : Nat) : Except AttrErr Copy :=
  match getAttr (Function.update σ new { cls := (σ x).cls, dict := fun _ => none }) limit new "__setstate__" with
  | .error .recursionError => .error .recursionError
  | .error .attributeError => .ok (.object (withState σ κ x new) new)
  | .ok _ => .ok (.object (withState σ κ x new) new)

/-- `copy.deepcopy(x)`: `getattr(x, "__deepcopy__", None)` on the *object*, so that a `__getattr__` (`control.py:110-111`) is asked too. -/
def deepcopy (limit : Nat) (σ : Nat → PyObject) (κ : Nat → Nat) (x new : Nat) : Except AttrErr Copy :=
  match getAttr σ limit x "__deepcopy__" with
  | .error .recursionError => .error .recursionError
  | .error .attributeError => reconstruct limit σ κ x new
  | .ok (.bound s) => .ok (.madeBy s)
  | .ok (.value v) => .ok (.madeBy v)

/-- The names defined by the class `Control` (`control.py:38-117`), with those every class has that the protocol asks for. -/
def controlNames : List String :=
  ["__init__", "data", "tape_value", "get_derivative", "get_hessian", "update", "update_numpy", "assign_numpy", "fetch_numpy", "copy_data", "adj_value",
   "tlm_value", "hessian_value", "__getattr__", "mark_as_control", "unmark_as_control", "__str__", "__reduce_ex__", "__getstate__", "__class__"]

/-- The class `Control` (`control.py:5-117`). -/
def controlClass : PyClass := ⟨fun s => controlNames.contains s, some "control"⟩

/-- The names defined by the class `ReducedFunctionalNumPy` and the class it derives from (`reduced_functional_numpy.py:11-115`,
`reduced_functional.py:40-263`). -/
def numpyNames : List String :=
  ["__init__", "__getattr__", "__call__", "set_local", "derivative", "hessian", "obj_to_array", "get_controls", "get_global", "set_controls", "optimize_tape",
   "marked_controls", "__reduce_ex__", "__getstate__", "__class__"]

/-- The class `ReducedFunctionalNumPy` (`reduced_functional_numpy.py:11-28`). -/
def numpyClass : PyClass := ⟨fun s => numpyNames.contains s, some "rf"⟩

/-! ## Copying a tape -/

/-- A `TimeStepSequence` (`tape.py:861-889`): the blocks of each timestep and the flat list it inherits from. -/
structure Seq (β : Type*) where
  steps : List (List β)
  flat : List β

variable {β : Type*}

/-- `self._steps[-1].append(other)` (`tape.py:895`). -/
def appendLast : List (List β) → β → List (List β)
  | [], _ => []
  | [s], b => [s ++ [b]]
  | s :: t :: l, b => s :: appendLast (t :: l) b

/-- `TimeStepSequence.append` (`tape.py:891-896`). -/
def Seq.append (q : Seq β) (b : β) : Seq β :=
  let steps := if q.steps.isEmpty then q.steps ++ [[]] else q.steps
  ⟨appendLast steps b, q.flat ++ [b]⟩

/-- `TimeStepSequence.append_step()` (`tape.py:898-900`). -/
def Seq.appendStep (q : Seq β) : Seq β := { q with steps := q.steps ++ [[]] }

/-- `copy.deepcopy` of a `TimeStepSequence`: the attribute `_steps` (`tape.py:880-884`) is restored first, then every item of the list is appended with the
`append` the class defines (`tape.py:891-896`).  `κ` takes a block to its copy. -/
def Seq.deepcopy (κ : β → β) (q : Seq β) : Seq β :=
  (q.flat.map κ).foldl Seq.append ⟨q.steps.map (List.map κ), []⟩

/-- `pickle.loads(pickle.dumps(q))`: the items are put back with `list.extend`, which the class does not override (`tape.py:861-915`), then `_steps`. -/
def Seq.unpickle (κ : β → β) (q : Seq β) : Seq β :=
  ⟨q.steps.map (List.map κ), ([] : List β) ++ q.flat.map κ⟩

/-- The blocks of `Tape.copy()` (`tape.py:403-414`) by `TimeStepSequence.__init__` (`tape.py:879-885`): those of the timesteps, in order. -/
def Seq.copy (q : Seq β) : Seq β := ⟨q.steps, q.steps.flatten⟩

/-- A history of `add_block` and `end_timestep` calls on a new tape (`tape.py:229-234, 269-276`). -/
def Seq.record (l : List (Option β)) : Seq β :=
  l.foldl (fun q o => match o with | some b => q.append b | none => q.appendStep) ⟨[], []⟩

/-! ## The copied blocks -/

variable {V T A : Type*}

/-- The copy of a block: its dependencies and outputs are the copies of those of the original (`block.py:14-25`), its methods are the same. -/
def renameBlock (ρ : BV → BV) (b : Block V T A) : Block V T A := { b with deps := b.deps.map ρ, outs := b.outs.map ρ }

/-- The copies of the blocks of a tape.  `tape.py:192`. -/
def renameTape (ρ : BV → BV) (bs : Blocks V T A) : Blocks V T A := bs.map (renameBlock ρ)

end Copying
end Pyadjoint
