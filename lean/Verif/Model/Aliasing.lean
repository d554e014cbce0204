import Verif.Model.Core

/-!
# Derivative values as objects

`Verif.Model.Core` stores derivative values.  Python stores references to objects: `add_adj_output` keeps the object it is
given (`block_variable.py:24-28`), and `self.adj_value += val` changes that object in place if its type has an `__iadd__`
(finite element functions, NumPy arrays), or makes a new one (`AdjFloat`).  The same holds for `add_tlm_output` and
`add_hessian_output` (`block_variable.py:30-40`).  This file models the three sweeps with objects.
-/

namespace Pyadjoint

variable {V T A : Type*}

/-- Attributes `K` that refer to objects with values in `A`.
The attributes are `adj_value`, `tlm_value`, `hessian_value` (`block_variable.py:11-13`). -/
structure Objs (K A : Type*) where
  ref : K → Option Nat
  store : Nat → A
  next : Nat

namespace Objs

variable {K : Type*}

/-- The value of an attribute.  Reading `adj_value` and the like (`block_variable.py:11-13`). -/
def val (s : Objs K A) (k : K) : Option A := (s.ref k).map s.store

/-- A new object.  Object creation by Python, e.g. by `+` in `block_variable.py:28` for immutable values. -/
def alloc (s : Objs K A) (x : A) : Nat × Objs K A :=
  (s.next, { s with store := Function.update s.store s.next x, next := s.next + 1 })

/-- `add_adj_output`, `add_tlm_output`, `add_hessian_output` (`block_variable.py:24-40`) with an object; `inplace` says whether
`+=` changes the object. -/
def add [DecidableEq K] [Add A] (inplace : Bool) (s : Objs K A) (k : K) (a : Nat) : Objs K A :=
  match s.ref k with
  | none => { s with ref := Function.update s.ref k (some a) }
  | some a0 =>
    if inplace then { s with store := Function.update s.store a0 (s.store a0 + s.store a) }
    else
      { s with
        ref := Function.update s.ref k (some s.next)
        store := Function.update s.store s.next (s.store a0 + s.store a)
        next := s.next + 1 }

/-- `if output is not None: bv.add_…_output(output)` (`block.py:143-145`, `223-225`, `297-299`), where the result `r` of the
component method is the object `handed`, if there is one, else a new object. -/
def give [DecidableEq K] [Add A] (inplace : Bool) (s : Objs K A) (k : K) (r : Option A) (handed : Option Nat) : Objs K A :=
  match r with
  | none => s
  | some x =>
    match handed with
    | some a => s.add inplace k a
    | none => (s.alloc x).2.add inplace k (s.alloc x).1

/-- The loop of `evaluate_adj`, `evaluate_tlm` and `evaluate_hessian` over the relevant variables (`block.py:137-145`,
`218-225`, `290-299`): every component method `c` sees the objects `ins` as they are now, and may return one of them
(`src`). -/
def loop [DecidableEq K] [Add A] (inplace : Bool) (c : List (Option A) → Nat → Option A) (src : Nat → Option Nat)
    (ins : List (Option Nat)) (ps : List (K × Nat)) (s : Objs K A) : Objs K A :=
  ps.foldl (fun s p => s.give inplace p.1 (c (ins.map fun o => o.map s.store) p.2)
    ((src p.2).bind fun k => (ins[k]?).join)) s

end Objs

/-- Variables (the derivative fields of `base` are not used), the objects for tangent values, and those for adjoint and
Hessian values: the attribute `(false, v)` is `adj_value` of `v`, and `(true, v)` its `hessian_value`.
Fields as in `block_variable.py:9-22`. -/
structure RState (V T A : Type*) where
  base : Heap V T A
  tan : Objs BV T
  cot : Objs (Bool × BV) A

/-- A block together with which of its components are objects it was given: `adjSrc idx = some k` says that the adjoint
component `idx` returns `adj_inputs[k]` itself (as `adjfloat.py:438-439` does), otherwise the component returns a new object.
The same for `tlm_inputs`, and for `hessian_inputs + adj_inputs`. -/
structure RBlock (V T A : Type*) where
  block : Block V T A
  adjSrc : Nat → Option Nat
  tlmSrc : Nat → Option Nat
  hessSrc : Nat → Option Nat

namespace RState

/-- `Block.evaluate_adj` (`block.py:106-145`). -/
def evaluateAdjBlock [Add A] (inplace : Bool) (b : RBlock V T A) (markings : Bool) (s : RState V T A) :
    RState V T A :=
  let adjIn := b.block.outs.map fun o => s.cot.ref (false, o)
  if adjIn.all Option.isNone then s else
  let rel := relevant s.base markings b.block.deps
  if rel.isEmpty then s else
  let inputs := b.block.deps.map (saved s.base)
  { s with cot := s.cot.loop inplace (b.block.adjC inputs) b.adjSrc adjIn (rel.map fun p => ((false, p.1), p.2)) }

/-- `Block.evaluate_tlm` (`block.py:186-225`). -/
def evaluateTlmBlock [Add T] (inplace : Bool) (b : RBlock V T A) (markings : Bool) (s : RState V T A) :
    RState V T A :=
  let tlmIn := b.block.deps.map s.tan.ref
  if tlmIn.all Option.isNone then s else
  let rel := relevant s.base markings b.block.outs
  if rel.isEmpty then s else
  let inputs := b.block.deps.map (saved s.base)
  { s with tan := s.tan.loop inplace (b.block.tlmC inputs) b.tlmSrc tlmIn rel }

/-- The Hessian component as a function of `hessian_inputs + adj_inputs`, of which the first `n` are Hessian inputs.
The call at `block.py:291-297`. -/
def hessComponent (b : Block V T A) (inputs : List V) (tlms : List (Nat × Option T)) (n : Nat) (l : List (Option A))
    (idx : Nat) : Option A :=
  b.hessC inputs (l.take n) (l.drop n) idx tlms

/-- `Block.evaluate_hessian` (`block.py:266-299`). -/
def evaluateHessianBlock [Add A] (inplace : Bool) (b : RBlock V T A) (markings : Bool) (s : RState V T A) :
    RState V T A :=
  let hessIn := b.block.outs.map fun o => s.cot.ref (true, o)
  let adjIn := b.block.outs.map fun o => s.cot.ref (false, o)
  if hessIn.all Option.isNone then s else
  let rel := relevant s.base markings b.block.deps
  if rel.isEmpty then s else
  let inputs := b.block.deps.map (saved s.base)
  let tlms := rel.map fun q => (q.2, s.tan.val q.1)
  { s with
    cot := s.cot.loop inplace (hessComponent b.block inputs tlms b.block.outs.length) b.hessSrc (hessIn ++ adjIn)
      (rel.map fun p => ((true, p.1), p.2)) }

/-- `Tape.evaluate_adj` (`tape.py:362-377`). -/
def evaluateAdj [Add A] (inplace : Bool) (bs : List (RBlock V T A)) (markings : Bool) (s : RState V T A) :
    RState V T A :=
  bs.reverse.foldl (fun s b => evaluateAdjBlock inplace b markings s) s

/-- `Tape.evaluate_tlm` (`tape.py:379-383`). -/
def evaluateTlm [Add T] (inplace : Bool) (bs : List (RBlock V T A)) (markings : Bool) (s : RState V T A) :
    RState V T A :=
  bs.foldl (fun s b => evaluateTlmBlock inplace b markings s) s

/-- `Tape.evaluate_hessian` (`tape.py:385-389`). -/
def evaluateHessian [Add A] (inplace : Bool) (bs : List (RBlock V T A)) (markings : Bool) (s : RState V T A) :
    RState V T A :=
  bs.reverse.foldl (fun s b => evaluateHessianBlock inplace b markings s) s

end RState

end Pyadjoint
