import Verif.Model.Float
import Verif.Model.CrashHess
import Verif.Model.Reduced

/-!
# Recording: a Python session with `AdjFloat` objects

The state of a running Python program that computes with `AdjFloat` objects and plain floats,
records a tape, pauses and continues annotation, creates controls, and evaluates reduced functionals
and their derivatives in between.  Programs are lists of instructions; the objects they create are
numbered in the order of creation.

Not modelled here: `AdjFloat` subclasses, in-place operators (`AdjFloat` has none: `a += b` rebinds
`a` to `a + b`), `int` operands, time steps and checkpoint schedules (`Verif.Model.Checkpoint`),
several working tapes (`Verif.Model.Contexts`).
-/

namespace Pyadjoint

/-- A Python object: an `AdjFloat` (`adj = true`, `adjfloat.py:48-53`) or a plain `float`.
`ref` is the weak reference an overloaded object keeps to its block variable
(`overloaded_type.py:101-143`): `none` if it was never created or was collected. -/
structure Obj where
  value : ℝ
  adj : Bool
  ref : Option BV

/-- The Python session.  `next` is a block variable identity never used before; `held` are the block
variables referenced by `Control` objects (`control.py:38-40`). -/
structure Session where
  objs : List Obj := []
  heap : FHeap := fun _ => { output := 0 }
  next : BV := 0
  tape : FTape := []
  annotate : Bool := true
  held : List BV := []

/-- One step of the user's program.  (The user's program, not in the code.) -/
inductive Instr
  /-- `AdjFloat(r)` -/
  | const (r : ℝ)
  /-- a Python float `r` -/
  | plain (r : ℝ)
  /-- `-x`, `exp(x)`, `log(x)` -/
  | un (op : UOp) (i : Nat)
  /-- `x + y`, `x - y`, `x * y`, `x / y`, `x ** y`, `min(x, y)`, `max(x, y)` -/
  | bin (op : BOp) (i j : Nat)
  /-- `pause_annotation()` -/
  | pause
  /-- `continue_annotation()` -/
  | cont
  /-- `Control(x)` -/
  | control (i : Nat)
  /-- the garbage collector looks at the block variable of `x` -/
  | collect (i : Nat)
  /-- `ReducedFunctional(J, [Control(c) for c in cs], scale)(xs)` -/
  | call (J : Nat) (cs : List Nat) (scale : ℝ) (xs : List ℝ)
  /-- such a call in which an exception leaves the replay before block number `k` is done -/
  | interrupted (cs : List Nat) (xs : List ℝ) (k : Nat)
  /-- `ReducedFunctional(J, [Control(c) for c in cs]).derivative(adj_input=seed)` -/
  | derivative (J : Nat) (cs : List Nat) (seed : ℝ)
  /-- such a derivative left by an exception at component `j` of block number `k` of the sweep; the program catches it -/
  | crashedDerivative (J : Nat) (cs : List Nat) (seed : ℝ) (k j : Nat)
  /-- `ReducedFunctional(J, [Control(c) for c in cs]).hessian(ds)`, catching a `TypeError`; if it is raised, `k` and `junk` say
  where in the sweep and what the block had added by then -/
  | hessian (J : Nat) (cs : List Nat) (ds : List ℝ) (k : Nat) (junk : BV → Option ℝ)

namespace Session

/-- `BlockVariable(output)` (`block_variable.py:9-22`). -/
noncomputable def alloc (s : Session) (value : ℝ) : BV × Session :=
  (s.next, { s with heap := Function.update s.heap s.next { output := value }, next := s.next + 1 })

/-- The property `OverloadedType.block_variable` (`overloaded_type.py:120-132`): the referenced block
variable, or a new one if there is none. -/
noncomputable def touch (s : Session) (i : Nat) (o : Obj) : BV × Session :=
  match o.ref with
  | some v => (v, s)
  | none =>
    let (v, s) := s.alloc o.value
    (v, { s with objs := s.objs.set i { o with ref := some v } })

/-- The block variable of an argument: arguments that are not overloaded are converted to a new
`AdjFloat` first (`adjfloat.py:26-32`, `create_overloaded_object` in lines 147-148, 166-167, 241-243). -/
noncomputable def operand (s : Session) (i : Nat) (o : Obj) : BV × Session :=
  if o.adj then s.touch i o else s.alloc o.value

/-- `Block.add_dependency` (`block.py:43-57`): through `will_add_as_dependency`
(`block_variable.py:64-71`) and `_ad_will_add_as_dependency` (`overloaded_type.py:273-277`) the value
is saved unless something is saved already. -/
noncomputable def addDependency (s : Session) (v : BV) : Session :=
  { s with heap := Function.update s.heap v { s.heap v with
      ckpt := some ((s.heap v).ckpt.getD (s.heap v).output) } }

/-- A new object without block variable.  A new Python object (`overloaded_type.py:110-112`). -/
def push (s : Session) (value : ℝ) (adj : Bool) : Session :=
  { s with objs := s.objs ++ [⟨value, adj, none⟩] }

/-- Creation of the output object and its block variable, `tape.add_block` and `block.add_output`
(`adjfloat.py:34-42`, `149-160`; `tape.py:269-276`; `block.py:68-78`).  `will_add_as_output`
(`block_variable.py:73-83`) leaves the new variable without checkpoint. -/
noncomputable def addBlock (s : Session) (mk : BV → FBlock) (value : ℝ) : Session :=
  let (o, s) := s.alloc value
  { s with tape := s.tape ++ [mk o], objs := s.objs ++ [⟨value, true, some o⟩] }

/-- The annotated unary operations (`adjfloat.py:8-44` for `NegBlock`, `144-179`). -/
noncomputable def recordUn (s : Session) (op : UOp) (i : Nat) (o : Obj) : Session :=
  let (a, s) := s.operand i o
  (s.addDependency a).addBlock (.un op a) (op.val o.value)

/-- The annotated binary operations (`adjfloat.py:8-44`, `236-273`), block arguments `i`, `j` in this
order.  The objects are read again after the first argument's block variable has been created,
since `i` and `j` may be the same object. -/
noncomputable def recordBin (s : Session) (op : BOp) (i j : Nat) (value : ℝ) : Option Session := do
  let o ← s.objs[i]?
  let (a, s) := s.operand i o
  let p ← s.objs[j]?
  let (b, s) := s.operand j p
  pure (((s.addDependency a).addDependency b).addBlock (.bin op a b) value)

/-- How Python dispatches a binary operation (`adjfloat.py:59-94`): with an overloaded first operand the
method of that operand runs; otherwise the reflected method of the second, which exists for `+`, `-`
and `*` only; `__radd__` and `__rmul__` are `__add__` and `__mul__` with the operands exchanged, and
`__rsub__` is annotated as `SubBlock(other, self)`.  `min` and `max` are functions. -/
inductive Dispatch
  | swapped | straight | notOverloaded

/-- See `Dispatch`.  `adjfloat.py:55-94`. -/
def dispatch (op : BOp) (adjI adjJ : Bool) : Dispatch :=
  match op with
  | .min | .max => .straight
  | .add | .mul => if adjI then .straight else if adjJ then .swapped else .notOverloaded
  | .sub => if adjI || adjJ then .straight else .notOverloaded
  | .div | .pow => if adjI then .straight else .notOverloaded

/-- Creating `Control(c)` for each `c`: the block variables, now held by the controls
(`control.py:38-40`).  A plain float has no `block_variable`: the exception is `none`. -/
noncomputable def controls : List Nat → Session → Option (List BV × Session)
  | [], s => some ([], s)
  | c :: cs, s => do
    let o ← s.objs[c]?
    if o.adj then
      let (v, s) := s.touch c o
      let (vs, s) ← controls cs { s with held := v :: s.held }
      pure (v :: vs, s)
    else none

/-- `ReducedFunctional(J, [Control(c) for c in cs], scale)(xs)` (`reduced_functional.py:81-110`,
`193-254`): the returned value and the new state. -/
noncomputable def call (s : Session) (J : Nat) (cs : List Nat) (scale : ℝ) (xs : List ℝ) :
    Option (ℝ × Session) := do
  let (vs, s) ← controls cs s
  let j ← s.objs[J]?
  if j.adj then
    let (v, s) := s.touch J j
    let (y, h) ← rfCall s.tape.blocks v vs scale xs s.heap
    pure (y, { s with heap := h })
  else none

/-- A call that an exception leaves before block number `k` is replayed: the controls are unmarked by
the context manager (`reduced_functional.py:266-276`), the rest of the state is as the exception
found it. -/
noncomputable def interruptedCall (s : Session) (cs : List Nat) (xs : List ℝ) (k : Nat) :
    Option Session := do
  let (vs, s) ← controls cs s
  if xs.length ≠ vs.length then none
  else pure { s with heap := rfEval (FTape.blocks (s.tape.take k)) vs xs s.heap }

/-- `ReducedFunctional(J, [Control(c) for c in cs], scale).derivative(adj_input=seed)`
(`reduced_functional.py:112-160`). -/
noncomputable def derivative (s : Session) (J : Nat) (cs : List Nat) (scale seed : ℝ) :
    Option (List ℝ × Session) := do
  let (vs, s) ← controls cs s
  let j ← s.objs[J]?
  if j.adj then
    let (v, s) := s.touch J j
    let (ds, h) := rfDerivative s.tape.blocks v vs scale seed s.heap
    pure (ds, { s with heap := h })
  else none

/-- The controls and the functional of a reduced functional (`reduced_functional.py:76-94`): their block variables. -/
noncomputable def functional (s : Session) (J : Nat) (cs : List Nat) : Option ((BV × List BV) × Session) := do
  let (vs, s) ← controls cs s
  let j ← s.objs[J]?
  if j.adj then
    let (v, s) := s.touch J j
    pure ((v, vs), s)
  else none

/-- A derivative computation that raises (see `crashedGradientState`).  `reduced_functional.py:112-160`, `drivers.py:5-33`. -/
noncomputable def crashedDerivative (s : Session) (J : Nat) (cs : List Nat) (seed : ℝ) (k j : Nat) : Option Session := do
  let (r, s) ← s.functional J cs
  pure { s with heap := crashedGradientState s.tape.blocks r.1 r.2 seed k j s.heap }

/-- `ReducedFunctional(J, [Control(c) for c in cs]).hessian(ds)` (`reduced_functional.py:162-191`): the result, or the
`TypeError` of a block.  More directions than controls are an `IndexError`. -/
noncomputable def hessian (s : Session) (J : Nat) (cs : List Nat) (ds : List ℝ) (k : Nat) (junk : BV → Option ℝ) :
    Option (Except FBlock.PyErr (List ℝ) × Session) := do
  let (r, s) ← s.functional J cs
  if r.2.length < ds.length then none else
  match s.tape.computeHessian r.1 r.2 ds s.heap with
  | .ok (hs, h) => pure (.ok hs, { s with heap := h })
  | .error e => pure (.error e, { s with heap := s.tape.failedHessian r.1 r.2 ds k junk s.heap })

/-- One instruction; `none` is an exception.
The calls are `adjfloat.py:26-43, 145-274`, `tape.py:20-31`, `control.py`, `reduced_functional.py:112-254`. -/
noncomputable def step (s : Session) : Instr → Option Session
  | .const r => some (s.push r true)
  | .plain r => some (s.push r false)
  | .un op i => do
    let o ← s.objs[i]?
    if op = .neg ∧ o.adj = false then pure (s.push (op.val o.value) false)
    else if s.annotate then pure (s.recordUn op i o)
    else pure (s.push (op.val o.value) true)
  | .bin op i j => do
    let o ← s.objs[i]?
    let p ← s.objs[j]?
    match dispatch op o.adj p.adj with
    | .notOverloaded => pure (s.push (op.val o.value p.value) false)
    | .straight =>
      if s.annotate then s.recordBin op i j (op.val o.value p.value)
      else pure (s.push (op.val o.value p.value) true)
    | .swapped =>
      if s.annotate then s.recordBin op j i (op.val p.value o.value)
      else pure (s.push (op.val p.value o.value) true)
  | .pause => some { s with annotate := false }
  | .cont => some { s with annotate := true }
  | .control i => do
    let (_, s) ← controls [i] s
    pure s
  | .collect i => do
    let o ← s.objs[i]?
    match o.ref with
    | none => pure s
    | some v =>
      if v ∈ s.held ∨ (∃ b ∈ s.tape, v ∈ b.deps ∨ v = b.out) then pure s
      else pure { s with objs := s.objs.set i { o with ref := none } }
  | .call J cs scale xs => (s.call J cs scale xs).map (·.2)
  | .interrupted cs xs k => s.interruptedCall cs xs k
  | .derivative J cs seed => (s.derivative J cs 1 seed).map (·.2)
  | .crashedDerivative J cs seed k j => s.crashedDerivative J cs seed k j
  | .hessian J cs ds k junk => (s.hessian J cs ds k junk).map (·.2)

/-- A program.  (The user's program, not in the code.) -/
noncomputable def run (p : List Instr) (s : Session) : Option Session := p.foldlM step s

end Session
end Pyadjoint
