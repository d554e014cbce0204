import Verif.Model.Reduced

/-!
# Programs that change objects in place

Overloaded types may be mutable: an annotated method such as the `u.add_in_place(2.0)` of the
documentation of `Control` (`control.py:5-36`) stores its result in the existing object `u` and gives it a
new block variable.  Here programs over such objects are recorded; evaluation and derivatives are those of
`Verif.Model.Reduced` and `Verif.Model.Core` on the tape recorded.

Simplified: annotation is on except inside `stop_annotating`; operations have one output; one timestep, no
checkpoint manager.  Checkpoints are copies of the value (`_ad_create_checkpoint`, which a mutable type has
to implement so).  A block variable that nobody refers to any more is not forgotten
(`overloaded_type.py:129-132` would make a new one, which is in the same state).
-/

namespace Pyadjoint
namespace InPlace

variable {V T A : Type*}

/-- A kind of operation: the value it computes and the component methods of its block.
`block.py:89-365` (methods a block implements). -/
structure Op (V T A : Type*) where
  val : List V → V
  adjC : List V → List (Option A) → Nat → Option A
  tlmC : List V → List (Option T) → Nat → Option T
  hessC : List V → List (Option A) → List (Option A) → Nat → List (Nat × Option T) → Option A

/-- The block recorded for an operation.  `block.py:15-25`. -/
def Op.toBlock (k : Op V T A) (deps : List BV) (out : BV) : Block V T A where
  deps := deps
  outs := [out]
  recomputeC := fun ins _ => some (k.val ins)
  adjC := k.adjC
  tlmC := k.tlmC
  hessC := k.hessC

/-- The statements of a program over objects `0, 1, 2, …`. -/
inductive Stmt (V T A : Type*)
  /-- An annotated operation reading objects `vs` and storing its result in the object `o`
  (possibly one of `vs`). -/
  | op (k : Op V T A) (vs : List Nat) (o : Nat)
  /-- `with stop_annotating(modifies=o): o.value = x`  (`tape.py:94-130`). -/
  | modify (o : Nat) (x : V)
  /-- A change of the value of `o` which is not announced to pyadjoint. -/
  | assign (o : Nat) (x : V)
  /-- `Control(v)`  (`control.py:38-40`). -/
  | control (v : Nat)

/-- The objects of the program, their block variables and the tape.
`overloaded_type.py:108-142` (`_block_variable`), `block_variable.py:9-24` (`output`, `_checkpoint`),
`tape.py:190-208`. -/
structure World (V T A : Type*) where
  /-- the value each object holds now -/
  vals : Nat → V
  /-- the block variable each object refers to -/
  ref : Nat → Option BV
  /-- the next block variable to be made -/
  next : BV
  /-- `BlockVariable.output`, an object -/
  owner : BV → Nat
  ckpt : BV → Option V
  blocks : Blocks V T A
  /-- the block variables of the controls made so far -/
  controls : List BV

/-- The world before the program: objects hold values, nothing is recorded.  `tape.py:190-208`. -/
def World.start (vals : Nat → V) : World V T A :=
  { vals := vals, ref := fun _ => none, next := 0, owner := fun _ => 0, ckpt := fun _ => none,
    blocks := [], controls := [] }

/-- `OverloadedType.create_block_variable`.  `overloaded_type.py:140-142`. -/
def World.create (w : World V T A) (v : Nat) : World V T A :=
  { w with
    ref := fun u => if u = v then some w.next else w.ref u
    owner := fun b => if b = w.next then v else w.owner b
    next := w.next + 1 }

/-- The property `OverloadedType.block_variable`: the one the object refers to, else a new one.
`overloaded_type.py:129-132`. -/
def World.blockVar (w : World V T A) (v : Nat) : World V T A × BV :=
  match w.ref v with
  | some b => (w, b)
  | none => (w.create v, w.next)

/-- `Block.add_dependency` on an object: its block variable saves the current value unless it has one.
`block.py:38-57`, `block_variable.py:64-71`, `overloaded_type.py:273-277`. -/
def World.addDep (w : World V T A) (v : Nat) : World V T A × BV :=
  let (w, b) := w.blockVar v
  ({ w with ckpt := fun c => if c = b then some ((w.ckpt b).getD (w.vals (w.owner b))) else w.ckpt c }, b)

/-- The dependencies of a block, in order.  `block.py:38-57`. -/
def World.addDeps (w : World V T A) : List Nat → World V T A × List BV
  | [] => (w, [])
  | v :: vs =>
    let (w, b) := w.addDep v
    let (w, bs) := w.addDeps vs
    (w, b :: bs)

/-- The value object `o` holds is changed; nothing else. -/
def World.setVal (w : World V T A) (o : Nat) (x : V) : World V T A :=
  { w with vals := fun u => if u = o then x else w.vals u }

/-- One statement.
`op`: dependencies are added, the result is computed and stored in `o`, `o` gets a new block variable, the
output of the block (`block.py:70-80`, pattern of `overloaded_function.py:22-36` for a result that
exists already);
`modify`: the value changes and the reference to the block variable is dropped (`tape.py:122-130`);
`control`: the block variable is kept (`control.py:38-40`). -/
def World.step (w : World V T A) : Stmt V T A → World V T A
  | .op k vs o =>
    let x := k.val (vs.map w.vals)
    let (w, ds) := w.addDeps vs
    let out := w.next
    let w := (w.setVal o x).create o
    { w with blocks := w.blocks ++ [k.toBlock ds out] }
  | .modify o x => { w.setVal o x with ref := fun u => if u = o then none else w.ref u }
  | .assign o x => w.setVal o x
  | .control v =>
    let (w, b) := w.blockVar v
    { w with controls := w.controls ++ [b] }

/-- The whole program. -/
def World.run (w : World V T A) (p : List (Stmt V T A)) : World V T A := p.foldl World.step w

/-- The block variables as the engine sees them.  `block_variable.py:9-24`. -/
def World.heap (w : World V T A) : Heap V T A :=
  fun b => { output := w.vals (w.owner b), ckpt := w.ckpt b }

/-- The block variables of the controls with the given numbers (in order of creation).
`control.py:38-40`, `reduced_functional.py:91-110`. -/
def World.pick (w : World V T A) (sel : List Nat) : List BV := sel.map fun i => w.controls.getD i 0

/-- `ReducedFunctional(J, [controls sel])(xs)`, `J` an object; its block variable is looked up when the
functional is called.  `reduced_functional.py:212-258` (scale 1, callbacks as by default). -/
def World.rfCall (w : World V T A) (J : Nat) (sel : List Nat) (xs : List V) : V :=
  let (w, b) := w.blockVar J
  saved (rfEval w.blocks (w.pick sel) xs w.heap) b

/-- `c.data()` of the control with number `i`: its checkpoint.  `control.py:42-43`. -/
def World.controlData (w : World V T A) (i : Nat) : Option V := w.ckpt (w.controls.getD i 0)

/-- `c.tape_value()` of the control with number `i`: checkpoint, else the value of its object.
`control.py:45-46`, `block_variable.py:58-63`. -/
def World.controlValue (w : World V T A) (i : Nat) : V := saved w.heap (w.controls.getD i 0)

end InPlace
end Pyadjoint
