import Verif.Model.Core

/-!
# Floating objects

`FloatingType` (`overloaded_type.py:401-463`): an overloaded object that annotates a block of its own just before it is used as a dependency (it is a
view of other objects, for instance a component of a mixed function), and another one just after it was written (which propagates the new value to the
objects it is a view of).
-/

namespace Pyadjoint.Floating

open Pyadjoint

/-- An overloaded object.  `overloaded_type.py:101-143, 401-450`. -/
abbrev Obj := Nat

/-- What a floating object was given (`overloaded_type.py:402-414`).  The constructor of `block_class` adds `args` as dependencies, the constructor of
`output_block_class` adds `outArgs` (it gets the object itself as first argument, line 450).  The recompute functions of the two blocks are `fn` and
`outFn`.  `none` for a missing block class (lines 434, 446). -/
structure View (V : Type*) where
  block : Option (List Obj × (List V → V))
  outBlock : Option (List Obj × List Obj × (List V → Nat → V))

/-- A recorded block.  `birth` is the number of block variables that existed when it was put on the tape (used in proofs only).
`block.py:15-25`. -/
structure Rec (V : Type*) where
  deps : List BV
  outs : List BV
  fn : List V → Nat → V
  birth : Nat

/-- The state of a recording: the block variable each object refers to (`OverloadedType._block_variable`), the number of block variables created so far,
the object each of them belongs to (`BlockVariable.output`) and the tape.
`overloaded_type.py:129-143`, `block_variable.py:9-22`, `tape.py:192`. -/
structure FS (V : Type*) where
  cur : Obj → Option BV
  next : Nat
  owner : BV → Obj
  tape : List (Rec V)

variable {V : Type*}

/-- `OverloadedType.create_block_variable` (`overloaded_type.py:139-141`, `416-419`). -/
def FS.create (s : FS V) (o : Obj) : FS V :=
  { s with cur := Function.update s.cur o (some s.next), next := s.next + 1, owner := Function.update s.owner s.next o }

/-- The property `OverloadedType.block_variable` (`overloaded_type.py:127-130`).  (Block variables are not garbage collected here.) -/
def FS.ensure (s : FS V) (o : Obj) : FS V :=
  match s.cur o with
  | some _ => s
  | none => s.create o

/-- `Tape.add_block` (`tape.py:269-276`). -/
def FS.push (s : FS V) (deps outs : List BV) (fn : List V → Nat → V) : FS V :=
  { s with tape := s.tape ++ [⟨deps, outs, fn, s.next⟩] }

/-- `self._outputs.append(obj)` (`block.py:78`) for the block at position `i` of the tape. -/
def FS.appendOut (s : FS V) (i : Nat) (v : BV) : FS V :=
  { s with tape := s.tape.modify i fun b => { b with outs := b.outs ++ [v] } }

mutual
/-- `Block.add_dependency` (`block.py:43-57`) with `_ad_will_add_as_dependency` (`overloaded_type.py:421-425`) and `_ad_annotate_block`
(lines 433-442); `act` are the objects with `_ad_floating_active` (`stop_floating`, lines 456-463, takes the object itself out for the time of its own
annotation).  Returns the block variable that is put into the list of dependencies.  (Values are not recorded here: what `save_output` stores is the value
in memory, `Verif.Spec.Views`.) -/
def useDep (cfg : Obj → View V) (act : List Obj) (o : Obj) (s : FS V) : FS V × BV :=
  let s := s.ensure o
  let s :=
    if _h : o ∈ act then
      match (cfg o).block with
      | none => s
      | some (args, fn) =>
        let r := useAll cfg (act.erase o) args s
        let s := r.1.push r.2 [r.1.next] fun xs _ => fn xs
        s.create o
    else s
  (s, (s.cur o).getD 0)
termination_by (act.length, 0)
decreasing_by
  have := List.length_erase_of_mem _h
  have := List.length_pos_of_mem _h
  apply Prod.Lex.left
  omega

/-- Dependencies are added one after the other.  `block.py:43-57`. -/
def useAll (cfg : Obj → View V) (act : List Obj) (os : List Obj) (s : FS V) : FS V × List BV :=
  match os with
  | [] => (s, [])
  | o :: os =>
    let r := useDep cfg act o s
    let r' := useAll cfg act os r.1
    (r'.1, r.2 :: r'.2)
termination_by (act.length, os.length + 1)
end

mutual
/-- `block.add_output(o.create_block_variable())` for the block at position `i` (`block.py:68-78`): `will_add_as_output` (`block_variable.py:73-83`) with
`_ad_will_add_as_output` (`overloaded_type.py:427-431`) and `_ad_annotate_output_block` (lines 444-454). -/
def addOut (cfg : Obj → View V) (act : List Obj) (i : Nat) (o : Obj) (s : FS V) : FS V :=
  let v := s.next
  let s := s.create o
  let s :=
    if _h : o ∈ act then
      match (cfg o).outBlock with
      | none => s
      | some (args, outs, fn) =>
        let r := useAll cfg (act.erase o) args s
        let j := r.1.tape.length
        addOuts cfg (act.erase o) j outs (r.1.push r.2 [] fn)
    else s
  s.appendOut i v
termination_by (act.length, 0)
decreasing_by
  have := List.length_erase_of_mem _h
  have := List.length_pos_of_mem _h
  apply Prod.Lex.left
  omega

/-- The loop over the outputs (`overloaded_type.py:453-454`). -/
def addOuts (cfg : Obj → View V) (act : List Obj) (i : Nat) (os : List Obj) (s : FS V) : FS V :=
  match os with
  | [] => s
  | o :: os => addOuts cfg act i os (addOut cfg act i o s)
termination_by (act.length, os.length + 1)
end

/-- An annotated operation: its inputs, its outputs and the function its block recomputes.  (The user's program, not in the code.) -/
structure Op (V : Type*) where
  ins : List Obj
  outs : List Obj
  fn : List V → Nat → V

/-- Recording an operation: construct the block (which adds the dependencies), put it on the tape, compute, add the outputs
(`overloaded_function.py:43-60`, `adjfloat.py:26-42`). -/
def record (cfg : Obj → View V) (act : List Obj) (op : Op V) (s : FS V) : FS V :=
  let r := useAll cfg act op.ins s
  let j := r.1.tape.length
  addOuts cfg act j op.outs (r.1.push r.2 [] op.fn)

/-- Recording a program.  (The user's program, not in the code.) -/
def recordAll (cfg : Obj → View V) (act : List Obj) (p : List (Op V)) (s : FS V) : FS V :=
  p.foldl (fun s op => record cfg act op s) s

/-- Before anything is recorded.  A new `Tape()` (`tape.py:190-208`). -/
def FS.init : FS V := ⟨fun _ => none, 0, fun _ => 0, []⟩

/-- The recorded tape as a tape of the model.  `Tape.get_blocks` (`tape.py:337-350`). -/
def FS.blocks {T A : Type*} (s : FS V) : Blocks V T A :=
  s.tape.map fun b =>
    { deps := b.deps, outs := b.outs, recomputeC := fun xs i => some (b.fn xs i), adjC := fun _ _ _ => none, tlmC := fun _ _ _ => none,
      hessC := fun _ _ _ _ _ => none }

end Pyadjoint.Floating
