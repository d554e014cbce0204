import Verif.Model.ArrayIndex
import Verif.Model.Float
import Verif.Model.Reduced

/-!
# Programs with NumPy arrays

Models `numpy_adjoint/array.py` together with the `AdjFloat` operations: arrays, reading entries and parts of arrays (`__getitem__`, recorded),
arithmetic with the numbers read (recorded), and what `numpy_adjoint` inherits from NumPy without recording it: arithmetic with arrays, and
assignment to entries.

Simplifications: an array is the list of its entries in a fixed order, kept in `N + 1` cells, where `N` is arbitrary; a number is kept in the
first cell.  An index is the list of the positions it reads (`Verif.Model.ArrayIndex` computes it from the index expression).  Every object has its
block variable from the start, and an assignment changes one object only: a part `a[i:j]` does not share memory with `a`.  Tangents and Hessians
of reads are not implemented in the code (`block.py:244-265`, `319-328`).
-/

namespace Pyadjoint
namespace Arr

/-- Contents of an object.  Entries of a `numpy_adjoint.ndarray` (`numpy_adjoint/array.py:8-42`) or of an `AdjFloat` (`adjfloat.py:48`). -/
abbrev Cells (N : Nat) := Fin (N + 1) → ℝ

variable {N : Nat}

/-- A number.  An `AdjFloat` (`adjfloat.py:48`). -/
def num (x : ℝ) : Cells N := Pi.single 0 x

/-- `a[item]` (`numpy_adjoint/array.py:22-35`, `58-59`) for an index that reads the positions `ps`. -/
def readCells (ps : List (Fin (N + 1))) (x : Cells N) : Cells N := fun k => ((readAt x ps)[(k : Nat)]?).getD 0

/-- Blocks: an operation of `adjfloat.py`, or a read (`NumpyArraySliceBlock`, `numpy_adjoint/array.py:44-56`). -/
inductive ABlock (N : Nat)
  | float (b : FBlock)
  | get (a o : BV) (ps : List (Fin (N + 1)))

/-- An operation on numbers, on their cells.  The blocks of `adjfloat.py:182-616`. -/
def liftBlock (b : Block ℝ ℝ ℝ) : Block (Cells N) (Cells N) (Cells N) where
  deps := b.deps
  outs := b.outs
  recomputeC xs i := (b.recomputeC (xs.map (· 0)) i).map num
  adjC xs ls i := (b.adjC (xs.map (· 0)) (ls.map (Option.map (· 0))) i).map num
  tlmC _ _ _ := none
  hessC _ _ _ _ _ := none

/-- `NumpyArraySliceBlock` (`numpy_adjoint/array.py:44-56`): the adjoint assigns into zeros. -/
def getBlock (a o : BV) (ps : List (Fin (N + 1))) : Block (Cells N) (Cells N) (Cells N) where
  deps := [a]
  outs := [o]
  recomputeC xs _ := (xs[0]?).map (readCells ps)
  adjC _ ls _ := (ls[0]?).join.map fun l => sliceAdj ps (List.ofFn l)
  tlmC _ _ _ := none
  hessC _ _ _ _ _ := none

/-- The block on the tape (`numpy_adjoint/array.py:44-56`, `adjfloat.py`). -/
noncomputable def ABlock.toBlock : ABlock N → Block (Cells N) (Cells N) (Cells N)
  | .float b => liftBlock b.toBlock
  | .get a o ps => getBlock a o ps

/-- The objects of the program are numbered; object `i` has the block variable `i`, whose `output` is the object.
`OverloadedType.block_variable` and `BlockVariable.output` (`overloaded_type.py:129-143`, `block_variable.py:9-10`), and the blocks of the tape (`tape.py:192`). -/
structure State (N : Nat) where
  heap : Heap (Cells N) (Cells N) (Cells N)
  tape : List (ABlock N)
  next : Nat
  /-- Whether the object is an array. -/
  isArray : Nat → Bool

/-- The tape, `tape.get_blocks()` (`tape.py:347-350`). -/
noncomputable def State.blocks (s : State N) : Blocks (Cells N) (Cells N) (Cells N) := s.tape.map ABlock.toBlock

/-- Instructions.  All but `assign` make a new object.
(The user's program, not in the code; `get` is `numpy_adjoint/array.py:22-35`, `un` and `bin` are `adjfloat.py:26-43`.) -/
inductive Instr (N : Nat)
  /-- `numpy_adjoint.array(...)`. -/
  | array (x : Cells N)
  /-- `AdjFloat(r)`. -/
  | number (r : ℝ)
  /-- `a[item]`; `scalar` says that the result is a number. -/
  | get (i : Nat) (ps : List (Fin (N + 1))) (scalar : Bool)
  /-- Operations on numbers. -/
  | un (op : UOp) (i : Nat)
  | bin (op : BOp) (i j : Nat)
  /-- NumPy arithmetic with arrays, `a + b`. -/
  | arith (f : Cells N → Cells N → Cells N) (i j : Nat)
  /-- `a[item] = y` for an array `y` with as many entries, or a number and one position. -/
  | assign (i : Nat) (ps : List (Fin (N + 1))) (j : Nat)

namespace State

/-- The start: no objects, an empty tape.  A new `Tape()` (`tape.py:190-208`). -/
noncomputable def empty : State N := ⟨fun _ => { output := 0 }, [], 0, fun _ => false⟩

/-- The contents of object `i`.  (The Python object itself; not in the code.) -/
def value (s : State N) (i : Nat) : Cells N := (s.heap i).output

/-- A new object.  A new overloaded object with its block variable (`overloaded_type.py:110-112, 141-143`). -/
def new (s : State N) (x : Cells N) (arr : Bool) : State N where
  heap := Function.update s.heap s.next { output := x }
  tape := s.tape
  next := s.next + 1
  isArray := Function.update s.isArray s.next arr

/-- `Block.add_dependency` (`block.py:43-57`): the contents are saved, unless they already are (`overloaded_type.py:273-277`,
`block_variable.py:52-55`; `_ad_create_checkpoint` copies, `numpy_adjoint/array.py:16-17`). -/
def use (s : State N) (i : Nat) : State N := { s with heap := saveOutput s.heap i false }

/-- `tape.add_block` and `add_output` (`numpy_adjoint/array.py:24-34`, `block.py:68-78`), then the new object. -/
def add (s : State N) (b : ABlock N) (x : Cells N) (arr : Bool) : State N := { s with tape := s.tape ++ [b] }.new x arr

/-- One instruction: `a[item]` (`numpy_adjoint/array.py:22-35`), operations on numbers (`adjfloat.py:26-42`), and NumPy's own operations, which make or change an
object and nothing else (`array.py` does not define them).  Unknown objects are a `NameError`; the index of a number is a `TypeError`. -/
noncomputable def step (s : State N) : Instr N → Option (State N)
  | .array x => some (s.new x true)
  | .number r => some (s.new (num r) false)
  | .get i ps scalar => if i < s.next ∧ s.isArray i = true ∧ ps.length ≤ N + 1 then some ((s.use i).add (.get i s.next ps) (readCells ps (s.value i)) (!scalar)) else none
  | .un op i => if i < s.next ∧ s.isArray i = false then some ((s.use i).add (.float (.un op i s.next)) (num (op.val (s.value i 0))) false) else none
  | .bin op i j => if (i < s.next ∧ s.isArray i = false) ∧ j < s.next ∧ s.isArray j = false then
      some (((s.use i).use j).add (.float (.bin op i j s.next)) (num (op.val (s.value i 0) (s.value j 0))) false) else none
  | .arith f i j => if i < s.next ∧ j < s.next then some (s.new (f (s.value i) (s.value j)) true) else none
  | .assign i ps j => if i < s.next ∧ j < s.next then
      some { s with heap := Function.update s.heap i { s.heap i with output := assignAt (s.value i) ps (List.ofFn (s.value j)) } } else none

/-- A program.  (The user's program, not in the code.) -/
noncomputable def run (p : List (Instr N)) : Option (State N) := p.foldlM step empty

/-- `ReducedFunctional(J, controls, scale)(xs)` (`reduced_functional.py:193-254`).  `func_value *= self.scale` (line 246) makes a new number; an
array is changed in place, and it is the saved value itself (`block_variable.py:57-62`, `numpy_adjoint/array.py:19-20`), or the object, if nothing is saved. -/
noncomputable def call (s : State N) (J : Nat) (cs : List Nat) (scale : ℝ) (xs : List (Cells N)) : Cells N × State N :=
  let h := rfEval s.blocks cs xs s.heap
  let y := scale • saved h J
  if s.isArray J then
    (y, { s with
      heap := Function.update h J
        (match (h J).ckpt with
          | some _ => { h J with ckpt := some y }
          | none => { h J with output := y }) })
  else (y, { s with heap := h })

/-- `ReducedFunctional.derivative(adj_input)` (`reduced_functional.py:112-160`). -/
noncomputable def derivative (s : State N) (J : Nat) (cs : List Nat) (scale : ℝ) (adjInput : Cells N) : List (Cells N) × State N :=
  let r := computeGradient s.blocks J cs (scale • adjInput) s.heap
  (r.1, { s with heap := r.2 })

end State
end Arr
end Pyadjoint
