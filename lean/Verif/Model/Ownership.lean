import Verif.Model.SecondOrder
import Verif.Model.Reduced

/-!
# Values as objects

`Verif.Model.Core` stores the forward values themselves.  In Python a `checkpoint` is a reference to an object that may be mutable (NumPy arrays, finite
element functions), and the same object may be held by the tape and by the caller.  This file models evaluations with objects: what the caller passes to
`rf(x)`, what it gets back, and what the tape keeps.  Derivative values as objects are in `Verif.Model.Aliasing`.
-/

namespace Pyadjoint
namespace Own

variable {V T A : Type*}

/-- What a type of values does: whether `_ad_restore_at_checkpoint` returns a copy (`overloaded_type.py:178-188`; `numpy_adjoint/array.py:19-20` and
`adjfloat.py:103-104` return the checkpoint itself), and whether `*=` changes the object (arrays) or makes a new one (`AdjFloat`, `adjfloat.py:48`).
`_ad_create_checkpoint` makes a copy (`numpy_adjoint/array.py:16-17`) or the object cannot be changed (`adjfloat.py:99-101`). -/
structure Kind where
  copies : Bool
  inplace : Bool

/-- The block variables and the objects: the fields of the variables other than the two values, the objects `output` and `_checkpoint`
(`block_variable.py:10, 14`), the contents of all objects, and the objects the caller holds, in the order they were obtained. -/
structure State (V T A : Type*) where
  base : Heap V T A
  out : BV → Nat
  ref : BV → Option Nat
  obj : Nat → V
  next : Nat
  handles : List Nat

/-- A block with the outputs for which `recompute_component` returns one of its inputs itself, e.g. `inputs[0]` (`block.py:356-385`). -/
structure OBlock (V T A : Type*) where
  block : Block V T A
  same : Nat → Option Nat

namespace State

/-- What reading the fields of the block variables gives (`block_variable.py:9-22`). -/
def heap (s : State V T A) : Heap V T A := fun v => { s.base v with output := s.obj (s.out v), ckpt := (s.ref v).map s.obj }

/-- A new object.  Created by `_ad_create_checkpoint` (`overloaded_type.py:164-176`), by `recompute_component` (`block.py:366-385`) or by the caller. -/
def alloc (s : State V T A) (x : V) : State V T A := { s with obj := Function.update s.obj s.next x, next := s.next + 1 }

/-- The setter of `BlockVariable.checkpoint` (`block_variable.py:92-96`). -/
def setRef (s : State V T A) (v : BV) (o : Nat) : State V T A := if (s.base v).isControl then s else { s with ref := Function.update s.ref v (some o) }

/-- The object of `BlockVariable.saved_output` (`block_variable.py:57-62`). -/
def savedObj (s : State V T A) (v : BV) : Nat := (s.ref v).getD (s.out v)

/-- The object a block gets as input if that is one the tape keeps: `saved_output` (`block_variable.py:57-62`, `block.py:340-341`) is a copy if the type
copies on restoring, unless nothing is saved. -/
def inputObj (k : Kind) (s : State V T A) (v : BV) : Option Nat := if k.copies ∧ (s.ref v).isSome then none else some (s.savedObj v)

/-- `if output is not None: out.checkpoint = output` (`block.py:361-363`), where the output is the object `handed`, if there is one, else a new one. -/
def give (s : State V T A) (v : BV) (r : Option V) (handed : Option Nat) : State V T A :=
  match r with
  | none => s
  | some x => match handed with
    | some o => s.setRef v o
    | none => (s.alloc x).setRef v s.next

/-- `Control.update` for each control (`reduced_functional.py:230-231`, `control.py:60-67`): the checkpoint is a copy of the object passed. -/
def updateControls (cs : List BV) (os : List Nat) (s : State V T A) : State V T A :=
  (cs.zip os).foldl (fun s p => (s.alloc (s.obj p.2)).setRef p.1 s.next) s

/-- An operation that changes no values.  (Not in the code: `base` is what the operation leaves.) -/
def withBase (s : State V T A) (g : Heap V T A → Heap V T A) : State V T A := { s with base := g s.heap }

end State

/-- `Block.recompute` (`block.py:330-363`). -/
def OBlock.recompute (k : Kind) (b : OBlock V T A) (s : State V T A) : State V T A :=
  if b.block.outs.any fun o => (s.base o).isControl then s else
  let inputs := b.block.deps.map (saved s.heap)
  let objs := b.block.deps.map (s.inputObj k)
  let rel := relevant s.heap false b.block.outs
  if rel.isEmpty then s else
  rel.foldl (fun s p => s.give p.1 (b.block.recomputeC inputs p.2) ((b.same p.2).bind fun j => (objs[j]?).join)) s

/-- The state part of `ReducedFunctional.__call__` (`reduced_functional.py:230-244`). -/
def State.rfEval (k : Kind) (bs : List (OBlock V T A)) (cs : List BV) (os : List Nat) (s : State V T A) : State V T A :=
  let s := s.updateControls cs os
  let s := s.withBase (markControls cs true)
  let s := bs.foldl (fun s b => b.recompute k s) s
  s.withBase (markControls cs false)

/-- `func_value = saved_output; func_value *= self.scale; return func_value` (`reduced_functional.py:246-254`); the caller holds the object returned.
`mul` multiplies by the scale. -/
def State.returned (k : Kind) (mul : V → V) (J : BV) (s : State V T A) : State V T A :=
  let o := s.savedObj J
  -- `saved_output`
  let s' := if k.copies ∧ (s.ref J).isSome then s.alloc (s.obj o) else s
  let o' := if k.copies ∧ (s.ref J).isSome then s.next else o
  -- `*=`
  if k.inplace then { s' with obj := Function.update s'.obj o' (mul (s'.obj o')), handles := s'.handles ++ [o'] }
  else { s'.alloc (mul (s'.obj o')) with handles := s'.handles ++ [s'.next] }

/-- What the caller does: make an object, change an object it holds (by the number of the object in the order obtained), look at one, evaluate a functional
at objects it holds, compute derivatives and Hessian actions (`reduced_functional.py:112-254`).  Functional and controls may differ from call to call. -/
inductive Event (V T A : Type*)
  | new (x : V)
  | modify (k : Nat) (x : V)
  | read (k : Nat)
  | call (J : BV) (cs : List BV) (ks : List Nat)
  | derivative (J : BV) (cs : List BV) (a : A)
  | hessian (J : BV) (cs : List BV) (ds : List T)

/-- What the caller sees. -/
inductive Seen (V A : Type*)
  | nothing
  | value (x : Option V)
  | list (l : List A)
  deriving DecidableEq

/-- One event (`reduced_functional.py:112-254`). -/
def State.step [Add T] [Add A] [Zero A] (k : Kind) (mul : V → V) (bs : List (OBlock V T A)) (s : State V T A) : Event V T A → Seen V A × State V T A
  | .new x => (.nothing, { s.alloc x with handles := s.handles ++ [s.next] })
  | .modify i x => (.nothing, (s.handles[i]?).elim s fun o => { s with obj := Function.update s.obj o x })
  | .read i => (.value ((s.handles[i]?).map s.obj), s)
  | .call J cs ks =>
    let s := (s.rfEval k bs cs (ks.filterMap fun i => s.handles[i]?)).returned k mul J
    (.value ((s.handles.getLast?).map s.obj), s)
  | .derivative J cs a =>
    (.list (computeGradient (bs.map OBlock.block) J cs a s.heap).1, s.withBase fun h => (computeGradient (bs.map OBlock.block) J cs a h).2)
  | .hessian J cs ds =>
    (.list (computeHessianOf (bs.map OBlock.block) J cs ds s.heap).1, s.withBase fun h => (computeHessianOf (bs.map OBlock.block) J cs ds h).2)

/-- A sequence of events.  (The caller's program; not in the code.) -/
def State.run [Add T] [Add A] [Zero A] (k : Kind) (mul : V → V) (bs : List (OBlock V T A)) : List (Event V T A) → State V T A → List (Seen V A)
  | [], _ => []
  | e :: l, s => (s.step k mul bs e).1 :: State.run k mul bs l (s.step k mul bs e).2

end Own
end Pyadjoint
