import Verif.Model.Core
import Mathlib.Analysis.SpecialFunctions.Pow.Real
import Mathlib.Analysis.SpecialFunctions.Log.Basic

/-!
# The `AdjFloat` blocks

Models `pyadjoint/adjfloat.py`.  `float` is modelled by the real numbers: rounding, infinities and NaN
are not modelled, and operations outside their domain (`log` of a nonpositive number, division by
zero, complex powers), which raise in Python, have Mathlib's junk values here.  The calculus theorems
only speak about points inside the domains.
-/

namespace Pyadjoint

/-- Unary operations: `NegBlock`, `ExpBlock`, `LogBlock` (`adjfloat.py:598-616`, `182-204`, `207-229`). -/
inductive UOp | neg | exp | log
  deriving DecidableEq

/-- Binary operations: `AddBlock`, `SubBlock`, `MulBlock`, `DivBlock`, `PowBlock`, `MinBlock`,
`MaxBlock` (`adjfloat.py:276-595`). -/
inductive BOp | add | sub | mul | div | pow | min | max
  deriving DecidableEq

/-- An `AdjFloat` block: operation, dependencies (which are also `self.terms`, in the same order,
`adjfloat.py:340-342`) and the output. -/
inductive FBlock
  | un (op : UOp) (a out : BV)
  | bin (op : BOp) (a b out : BV)
  deriving DecidableEq

/-- The float operation of a unary block (`adjfloat.py:203-204`, `228-229`, `599`). -/
noncomputable def UOp.val : UOp → ℝ → ℝ
  | .neg, a => -a
  | .exp, a => Real.exp a
  | .log, a => Real.log a

/-- The float operation of a binary block (`adjfloat.py:298-299`, `324-326`, `353`, `435`, `458`, `486`,
`517`).  Python's `min(a, b)` is `b if b < a else a`, `max(a, b)` is `b if b > a else a`. -/
noncomputable def BOp.val : BOp → ℝ → ℝ → ℝ
  | .add, a, b => a + b
  | .sub, a, b => a - b
  | .mul, a, b => a * b
  | .div, a, b => a / b
  | .pow, a, b => a ^ b
  | .min, a, b => if b < a then b else a
  | .max, a, b => if b > a then b else a

/-- `evaluate_adj_component` of the unary blocks: factor applied to the adjoint input
(`adjfloat.py:187-190`, `212-215`, `602-603`). -/
noncomputable def UOp.adjC (op : UOp) (a adj : ℝ) : ℝ :=
  match op with
  | .neg => -adj
  | .exp => Real.exp a * adj
  | .log => adj / a

/-- `evaluate_adj_component` of the binary blocks for dependency `idx`
(`adjfloat.py:282-288`, `308-314`, `356-368`, `438-439`, `461-465`, `489-491`, `520-533`). -/
noncomputable def BOp.adjC (op : BOp) (a b adj : ℝ) (idx : Nat) : ℝ :=
  match op with
  | .add => adj
  | .sub => if idx = 0 then adj else -adj
  | .mul => adj * (if (if idx = 1 then 0 else 1) = 0 then a else b)
  | .div => if idx = 0 then adj * (1 / b) else adj * (-(a / b ^ 2))
  | .pow => if idx = 0 then (adj * b) * a ^ (b - 1) else (adj * Real.log a) * a ^ b
  | .min => if idx = (if a ≤ b then 0 else 1) then adj else 0
  | .max => if idx = (if a ≥ b then 0 else 1) then adj else 0

/-- `evaluate_tlm_component` of the unary blocks (`adjfloat.py:192-195`, `217-220`, `605-606`). -/
noncomputable def UOp.tlmC (op : UOp) (a t : ℝ) : ℝ :=
  match op with
  | .neg => -t
  | .exp => Real.exp a * t
  | .log => t / a

/-- `evaluate_tlm_component` of `AddBlock`, `MulBlock`, `MinBlock`, `MaxBlock`
(`adjfloat.py:441-450`, `493-502`, `290-292`, `316-318`).  The other binary blocks override
`evaluate_tlm`, and `none` stands for the method they do not have. -/
noncomputable def BOp.tlmC (op : BOp) (a b : ℝ) (ta tb : Option ℝ) : Option ℝ :=
  match op with
  | .add => some ((0 + ta.getD 0) + tb.getD 0)
  | .mul => some ((0 + (ta.map (· * b)).getD 0) + (tb.map (· * a)).getD 0)
  | .min => if a ≤ b then ta else tb
  | .max => if a ≥ b then ta else tb
  | .sub | .div | .pow => none

/-- An `AdjFloat` block as a block with component methods.  `hessC` is not used for these blocks, see
`FBlock.evaluateHessian`.  The component methods of `adjfloat.py:182-616` as called by `block.py:78-330`. -/
noncomputable def FBlock.toBlock : FBlock → Block ℝ ℝ ℝ
  | .un op a out =>
    { deps := [a], outs := [out]
      recomputeC := fun inputs _ => (inputs[0]?).map op.val
      adjC := fun inputs adjIn _ => (adjIn[0]?).join.bind fun l =>
        (inputs[0]?).map fun x => op.adjC x l
      tlmC := fun inputs tlmIn _ => (tlmIn[0]?).join.bind fun t =>
        (inputs[0]?).map fun x => op.tlmC x t
      hessC := fun _ _ _ _ _ => none }
  | .bin op a b out =>
    { deps := [a, b], outs := [out]
      recomputeC := fun inputs _ => (inputs[0]?).bind fun x => (inputs[1]?).map fun y => op.val x y
      adjC := fun inputs adjIn idx => (adjIn[0]?).join.bind fun l =>
        (inputs[0]?).bind fun x => (inputs[1]?).map fun y => op.adjC x y l idx
      tlmC := fun inputs tlmIn _ => (inputs[0]?).bind fun x => (inputs[1]?).bind fun y =>
        op.tlmC x y (tlmIn[0]?).join (tlmIn[1]?).join
      hessC := fun _ _ _ _ _ => none }

/-- Heap of an `AdjFloat` program.  `block_variable.py:4-22`. -/
abbrev FHeap := Heap ℝ ℝ ℝ

/-- Tape of `AdjFloat` blocks.  `Tape._blocks` (`tape.py:192`). -/
abbrev FTape := List FBlock

/-- The tape as a list of blocks.  `Tape.get_blocks` (`tape.py:337-350`). -/
noncomputable def FTape.blocks (t : FTape) : Blocks ℝ ℝ ℝ := t.map FBlock.toBlock

namespace FBlock

/-- The output variable (`adjfloat.py:40`). -/
def out : FBlock → BV
  | un _ _ o => o
  | bin _ _ _ o => o

/-- The dependencies.  `Block.get_dependencies` (`block.py:59-66`). -/
def deps : FBlock → List BV
  | un _ a _ => [a]
  | bin _ a b _ => [a, b]

/-- `evaluate_tlm` of the `AdjFloat` blocks: `SubBlock`, `DivBlock` and `PowBlock` override it, ignoring
markings (`adjfloat.py:467-474`, `535-551`, `370-389`), the others inherit `block.py:186-225`. -/
noncomputable def evaluateTlm (blk : FBlock) (markings : Bool) (h : FHeap) : FHeap :=
  match blk with
  | bin .sub a b o =>
    let h := addTlm? h o (h a).tlm
    addTlm? h o ((h b).tlm.map fun t => -t)
  | bin .div a b o =>
    let h := addTlm? h o ((h a).tlm.map fun t => t * (1 / saved h b))
    addTlm? h o ((h b).tlm.map fun t => t * (-(saved h a / (saved h b) ^ 2)))
  | bin .pow a b o =>
    let x := saved h a
    let y := saved h b
    let h := addTlm? h o ((h a).tlm.map fun t => (t * y) * x ^ (y - 1))
    addTlm? h o ((h b).tlm.map fun t => (t * Real.log x) * x ^ y)
  | blk => blk.toBlock.evaluateTlm markings h

/-- The `TypeError` of `float.__mul__(None, ...)`, `float.__truediv__(None, ...)`.  Python's error, raised from `adjfloat.py:369-616`. -/
inductive PyErr | typeError
  deriving DecidableEq

/-- A float argument that is `None` where a float method needs a float.  Python's error, raised from `adjfloat.py:369-616`. -/
def needFloat : Option ℝ → Except PyErr ℝ
  | none => .error .typeError
  | some x => .ok x

/-- The loop of the inherited `Block.evaluate_hessian` (`block.py:266-299`) with a component
method that may raise.  `rel` are the relevant dependencies. -/
noncomputable def evaluateHessianDefault (deps : List BV) (o : BV) (markings : Bool)
    (comp : List ℝ → ℝ → Option ℝ → Nat → List (Nat × Option ℝ) → Except PyErr ℝ)
    (h : FHeap) : Except PyErr FHeap :=
  match (h o).hess with
  | none => .ok h
  | some hin =>
    let inputs := deps.map (saved h)
    let rel := relevant h markings deps
    rel.foldlM (fun (h' : FHeap) p => do
      let v ← comp inputs hin (h o).adj p.2 (rel.map fun q => (q.2, (h q.1).tlm))
      pure (addHess h' p.1 v)) h

/-- `MulBlock.evaluate_hessian_component` (`adjfloat.py:504-513`).  The loop reuses the name
`other_idx`, so that after it `other_idx` is the index of the *last relevant dependency*. -/
noncomputable def mulHessC (inputs : List ℝ) (hin : ℝ) (adj : Option ℝ) (idx : Nat)
    (rel : List (Nat × Option ℝ)) : Except PyErr ℝ := do
  let otherIdx := if idx = 1 then 0 else 1
  let (mixed, otherIdx) ← rel.foldlM (fun (acc : ℝ × Nat) (q : Nat × Option ℝ) =>
    match decide (q.1 ≠ idx), q.2 with
    | true, some t => do
      let a ← needFloat adj
      pure (a * t, q.1)
    | _, _ => pure (acc.1, q.1)) ((0 : ℝ), otherIdx)
  pure (mixed + hin * (inputs.getD otherIdx 0))

/-- `evaluate_hessian` of the `AdjFloat` blocks: `PowBlock`, `SubBlock`, `DivBlock`, `NegBlock` override it
and ignore the markings (`adjfloat.py:389-431`, `476-482`, `553-595`, `608-613`); the others inherit
`block.py:266-299` with the component methods of `adjfloat.py:197-201`, `222-226`, `294-296`, `320-322`,
`452-454`, `504-513`. -/
noncomputable def evaluateHessian (blk : FBlock) (markings : Bool) (h : FHeap) :
    Except PyErr FHeap :=
  match blk with
  | un .neg a o =>
    match (h o).hess with
    | none => .ok h
    | some hin => .ok (addHess h a (-hin))
  | un .exp a o => evaluateHessianDefault [a] o markings
      (fun i hin _ _ _ => .ok (Real.exp (i.getD 0 0) * hin)) h
  | un .log a o => evaluateHessianDefault [a] o markings
      (fun i hin _ _ _ => .ok (-hin / i.getD 0 0 / i.getD 0 0)) h
  | bin .add a b o => evaluateHessianDefault [a, b] o markings (fun _ hin _ _ _ => .ok hin) h
  | bin .mul a b o => evaluateHessianDefault [a, b] o markings mulHessC h
  | bin .min a b o => evaluateHessianDefault [a, b] o markings
      (fun i hin _ idx _ => .ok (BOp.adjC .min (i.getD 0 0) (i.getD 1 0) hin idx)) h
  | bin .max a b o => evaluateHessianDefault [a, b] o markings
      (fun i hin _ idx _ => .ok (BOp.adjC .max (i.getD 0 0) (i.getD 1 0) hin idx)) h
  | bin .sub a b o =>
    match (h o).hess with
    | none => .ok h
    | some hin => .ok (addHess (addHess h a hin) b (-hin))
  | bin .div a b o =>
    match (h o).hess with
    | none => .ok h
    | some hin => do
      let adj := (h o).adj
      let x := saved h a
      let y := saved h b
      let h := addHess h a (hin * (1 / y))
      let h := addHess h b (hin * (-(x / y ^ (2 : ℝ))))
      let h ← match (h b).tlm with
        | none => pure h
        | some t => do
          let l ← needFloat adj
          pure (addHess h b ((l * ((2 * x) / y ^ 3)) * t))
      let l ← needFloat adj
      let mixed := -(l / y ^ 2)
      let h := addHess? h a ((h b).tlm.map fun t => t * mixed)
      let h := addHess? h b ((h a).tlm.map fun t => t * mixed)
      pure h
  | bin .pow a b o =>
    match (h o).hess with
    | none => .ok h
    | some hin => do
      let adj := (h o).adj
      let x := saved h a
      let y := saved h b
      let h ← match (h a).tlm with
        | none => pure h
        | some t => do
          let l ← needFloat adj
          pure (addHess h a (((l * (y * (y - 1))) * x ^ (y - 2)) * t))
      let h := addHess h a ((hin * y) * x ^ (y - 1))
      let h ← match (h b).tlm with
        | none => pure h
        | some t => do
          let l ← needFloat adj
          pure (addHess h b (((l * (Real.log x) ^ 2) * x ^ y) * t))
      let h := addHess h b ((hin * Real.log x) * x ^ y)
      let l ← needFloat adj
      let mixed := l * (x ^ (y - 1) * (y * Real.log x + 1))
      let h := addHess? h a ((h b).tlm.map fun t => t * mixed)
      let h := addHess? h b ((h a).tlm.map fun t => t * mixed)
      pure h

end FBlock

/-- `Tape.evaluate_tlm` (`tape.py:379-383`) on `AdjFloat` blocks. -/
noncomputable def FTape.evaluateTlm (t : FTape) (markings : Bool) (h : FHeap) : FHeap :=
  t.foldl (fun h b => b.evaluateTlm markings h) h

/-- `Tape.evaluate_hessian` (`tape.py:385-389`) on `AdjFloat` blocks. -/
noncomputable def FTape.evaluateHessian (t : FTape) (markings : Bool) (h : FHeap) :
    Except FBlock.PyErr FHeap :=
  t.reverse.foldlM (fun h b => b.evaluateHessian markings h) h

/-- Assigning `tlm_value` on the controls, one after the other (`drivers.py:60-61`,
`control.py` attribute delegation to the block variable). -/
def seedTlm {V T A : Type*} (cs : List BV) (ds : List T) (h : Heap V T A) : Heap V T A :=
  (cs.zip ds).foldl (fun h p => Function.update h p.1 { h p.1 with tlm := some p.2 }) h

/-- `compute_hessian` (`drivers.py:36-75`) on `AdjFloat` tapes: reset tangent and Hessian values, seed the
tangents, tangent sweep and Hessian sweep on marked paths.  The Hessian seed on `J` is `0.`
(line 67).  The caller must have run `compute_gradient` before; its adjoint values are used. -/
noncomputable def FTape.computeHessian (t : FTape) (J : BV) (cs : List BV) (ds : List ℝ)
    (h : FHeap) : Except FBlock.PyErr (List ℝ × FHeap) :=
  let h := resetVariables t.blocks .tlm h
  let h := resetVariables t.blocks .hessian h
  let h := seedTlm cs ds h
  let nodes := findRelevantNodes t.blocks cs
  let h := markAll nodes false (t.evaluateTlm true (markAll nodes true h))
  let h := Function.update h J { h J with hess := some 0 }
  match t.evaluateHessian true (markAll nodes true h) with
  | .error e => .error e
  | .ok h =>
    let h := markAll nodes false h
    .ok (cs.map (getHessian h), h)

end Pyadjoint
