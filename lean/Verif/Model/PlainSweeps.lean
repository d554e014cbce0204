import Verif.Model.PlainNumbers

/-!
# The derivative methods of `AdjFloat` blocks with Python types and exceptions

`Verif.Model.Float` models the methods by their formulas.  Here every call of `float.__mul__`, `float.__pow__` and so on is a
step that can raise: the float methods need a `float` as first argument, and division by zero and `0.0 ** negative` raise.
Adjoint, tangent and Hessian values carry their Python type too, since seeds and directions are stored as they are given.

Not modelled: overflow, infinities, NaN.  `numpy.log` of a nonpositive number, which gives `-inf` or `nan` and a warning, has
Mathlib's junk value.  A complex power (whose product with a float is `NotImplemented`) counts as an exception.
-/

namespace Pyadjoint

/-- The type of `x + y` and `x * y` for Python numbers while annotation is paused (`adjfloat.py:25-43`). -/
def Kind.join : Kind → Kind → Kind
  | .adj, _ | _, .adj => .adj
  | .float, _ | _, .float => .float
  | .int, .int => .int

/-- `x + y`, as in `adj_value += val` (`block_variable.py:57-73`). -/
noncomputable instance : Add PyNum := ⟨fun x y => ⟨x.kind.join y.kind, x.val + y.val⟩⟩

namespace PyNum

/-- A Python `float`.  (A Python literal; not in the code.) -/
def ofFloat (r : ℝ) : PyNum := ⟨.float, r⟩

/-- A Python `int`.  (A Python literal; not in the code.) -/
def ofInt (n : ℤ) : PyNum := ⟨.int, n⟩

/-- `x * y` (`adjfloat.py:190`, `195`, `201`). -/
noncomputable def mul (x y : PyNum) : PyNum := ⟨x.kind.join y.kind, x.val * y.val⟩

/-- `x / y` (`adjfloat.py:215`, `220`, `226`): `AdjFloat` has no `__rtruediv__` of its own. -/
noncomputable def div (x y : PyNum) : Except NumErr PyNum :=
  if y.val = 0 then .error .zeroDivision else .ok ⟨if x.kind = .adj then .adj else .float, x.val / y.val⟩

/-- `-x` (`adjfloat.py:226`). -/
noncomputable def neg (x : PyNum) : PyNum := ⟨x.kind, -x.val⟩

/-- `x - n` for an `int` `n` (`adjfloat.py:363`, `382`, `405`, `406`, `410`, `426`). -/
noncomputable def subInt (x : PyNum) (n : ℤ) : PyNum := ⟨x.kind, x.val - n⟩

/-- `float.__neg__(x)`.  Python's method as used by `adjfloat.py:598-613`. -/
noncomputable def fneg (x : PyNum) : Except NumErr PyNum :=
  if x.kind = .int then .error .typeError else .ok (ofFloat (-x.val))

/-- `float.__add__(x, y)`.  Python's method as used by `adjfloat.py:434-483`. -/
noncomputable def fadd (x y : PyNum) : Except NumErr PyNum :=
  if x.kind = .int then .error .typeError else .ok (ofFloat (x.val + y.val))

/-- `float.__mul__(x, y)`.  Python's method as used by `adjfloat.py:352-616`. -/
noncomputable def fmul (x y : PyNum) : Except NumErr PyNum :=
  if x.kind = .int then .error .typeError else .ok (ofFloat (x.val * y.val))

/-- `float.__truediv__(x, y)`.  Python's method as used by `adjfloat.py:516-595`. -/
noncomputable def ftruediv (x y : PyNum) : Except NumErr PyNum :=
  if x.kind = .int then .error .typeError
  else if y.val = 0 then .error .zeroDivision
  else .ok (ofFloat (x.val / y.val))

open Classical in
/-- `float.__pow__(x, y)`.  Python's method as used by `adjfloat.py:352-431`. -/
noncomputable def fpow (x y : PyNum) : Except NumErr PyNum :=
  if x.kind = .int then .error .typeError
  else if x.val = 0 ∧ y.val < 0 then .error .zeroDivision
  else if x.val < 0 ∧ ¬ ∃ n : ℤ, y.val = n then .error .complexResult
  else .ok (ofFloat (x.val ^ y.val))

/-- `numpy.log(x)`, a `numpy.float64`.  Used by `adjfloat.py:352-431`. -/
noncomputable def log (x : PyNum) : PyNum := ofFloat (Real.log x.val)

/-- `None` where a float method needs a float.  Python's error, raised from `adjfloat.py:352-616`. -/
def need : Option PyNum → Except NumErr PyNum
  | none => .error .typeError
  | some x => .ok x

end PyNum

open PyNum

/-- `evaluate_adj_component` of the unary blocks (`adjfloat.py:187-190`, `212-215`, `602-603`). -/
noncomputable def UOp.adjNum (op : UOp) (x l : PyNum) : Except NumErr PyNum :=
  match op with
  | .neg => fneg l
  | .exp => .ok ((ofFloat (Real.exp x.val)).mul l)
  | .log => l.div x

/-- `evaluate_adj_component` of the binary blocks (`adjfloat.py:282-288`, `308-314`, `356-368`, `438-439`, `461-465`, `489-491`,
`520-533`). -/
noncomputable def BOp.adjNum (op : BOp) (x y l : PyNum) (idx : Nat) : Except NumErr PyNum :=
  match op with
  | .add => .ok l
  | .sub => if idx = 0 then .ok l else fneg l
  | .mul => fmul l (if (if idx = 1 then 0 else 1) = 0 then x else y)
  | .div =>
    if idx = 0 then do
      let q ← ftruediv (ofFloat 1) y
      fmul l q
    else do
      let p ← fpow y (ofInt 2)
      let q ← ftruediv x p
      let n ← fneg q
      fmul l n
  | .pow =>
    if idx = 0 then do
      let m ← fmul l y
      let p ← fpow x (y.subInt 1)
      fmul m p
    else do
      let m ← fmul l x.log
      let p ← fpow x y
      fmul m p
  | .min => .ok (if idx = (if x.val ≤ y.val then 0 else 1) then l else ofFloat 0)
  | .max => .ok (if idx = (if x.val ≥ y.val then 0 else 1) then l else ofFloat 0)

/-- The adjoint component of a block at the stored values.  The `evaluate_adj_component` methods of `adjfloat.py:187-604`. -/
noncomputable def FBlock.adjNum (b : FBlock) (h : PHeap) (l : PyNum) (idx : Nat) : Except NumErr PyNum :=
  match b with
  | .un op a _ => op.adjNum (saved h a) l
  | .bin op a c _ => op.adjNum (saved h a) (saved h c) l idx

/-- `Block.evaluate_adj` (`block.py:106-145`). -/
noncomputable def FBlock.kEvaluateAdj (b : FBlock) (markings : Bool) (h : PHeap) : Except NumErr PHeap :=
  match (h b.out).adj with
  | none => .ok h
  | some l => (relevant h markings b.deps).foldlM (fun (h' : PHeap) p => do
      let v ← b.adjNum h l p.2
      pure (addAdj h' p.1 v)) h

/-- `evaluate_tlm_component` of the unary blocks (`adjfloat.py:192-195`, `217-220`, `605-606`). -/
noncomputable def UOp.tlmNum (op : UOp) (x t : PyNum) : Except NumErr PyNum :=
  match op with
  | .neg => fneg t
  | .exp => .ok ((ofFloat (Real.exp x.val)).mul t)
  | .log => t.div x

/-- One step of the loop in `MulBlock.evaluate_tlm_component` (`adjfloat.py:493-502`). -/
noncomputable def mulTlmStep (acc : PyNum) (t : Option PyNum) (other : PyNum) : Except NumErr PyNum :=
  match t with
  | none => .ok acc
  | some t => do
    let m ← fmul t other
    pure (acc + m)

/-- One step of the loop in `AddBlock.evaluate_tlm_component` (`adjfloat.py:443-449`). -/
noncomputable def addTlmStep (acc : PyNum) : Option PyNum → PyNum
  | none => acc
  | some t => acc + t

/-- `evaluate_tlm_component` of `AddBlock`, `MulBlock`, `MinBlock`, `MaxBlock` (`adjfloat.py:441-450`, `493-502`, `290-292`,
`316-318`). -/
noncomputable def BOp.tlmNum (op : BOp) (x y : PyNum) (tx ty : Option PyNum) : Except NumErr (Option PyNum) :=
  match op with
  | .add => .ok (some (addTlmStep (addTlmStep (ofFloat 0) tx) ty))
  | .mul => do
    let m ← mulTlmStep (ofFloat 0) tx y
    let m ← mulTlmStep m ty x
    pure (some m)
  | .min => .ok (if x.val ≤ y.val then tx else ty)
  | .max => .ok (if x.val ≥ y.val then tx else ty)
  | .sub | .div | .pow => .ok none

/-- `if tlm_value is not None: output.add_tlm_output(f(tlm_value))`, as in `adjfloat.py:470-474`. -/
noncomputable def addTlmWith (h : PHeap) (o : BV) (t : Option PyNum) (f : PyNum → Except NumErr PyNum) : Except NumErr PHeap :=
  match t with
  | none => .ok h
  | some t => do
    let v ← f t
    pure (addTlm h o v)

/-- `evaluate_tlm`: `SubBlock`, `DivBlock` and `PowBlock` override it (`adjfloat.py:467-474`, `535-551`, `370-389`), the others inherit
`block.py:186-225`. -/
noncomputable def FBlock.kEvaluateTlm (b : FBlock) (markings : Bool) (h : PHeap) : Except NumErr PHeap :=
  match b with
  | .un op a o =>
    match (h a).tlm with
    | none => .ok h
    | some t =>
      if (h o).marked || !markings then do
        let v ← op.tlmNum (saved h a) t
        pure (addTlm h o v)
      else .ok h
  | .bin .sub a c o => do
    let h ← addTlmWith h o (h a).tlm .ok
    addTlmWith h o (h c).tlm fneg
  | .bin .div a c o => do
    let h ← addTlmWith h o (h a).tlm fun t => do
      let q ← ftruediv (ofFloat 1) (saved h c)
      fmul t q
    addTlmWith h o (h c).tlm fun t => do
      let p ← fpow (saved h c) (ofInt 2)
      let q ← ftruediv (saved h a) p
      let n ← fneg q
      fmul t n
  | .bin .pow a c o => do
    let x := saved h a
    let y := saved h c
    let h ← addTlmWith h o (h a).tlm fun t => do
      let m ← fmul t y
      let p ← fpow x (y.subInt 1)
      fmul m p
    addTlmWith h o (h c).tlm fun t => do
      let m ← fmul t x.log
      let p ← fpow x y
      fmul m p
  | .bin op a c o =>
    if (h a).tlm.isNone && (h c).tlm.isNone then .ok h else
    if (h o).marked || !markings then do
      let v ← op.tlmNum (saved h a) (saved h c) (h a).tlm (h c).tlm
      pure (addTlm? h o v)
    else .ok h

/-- `if tlm_value is not None: bv.add_hessian_output(f(tlm_value))`, as in `adjfloat.py:403-407`. -/
noncomputable def addHessWith (h : PHeap) (v : BV) (t : Option PyNum) (f : PyNum → Except NumErr PyNum) : Except NumErr PHeap :=
  match t with
  | none => .ok h
  | some t => do
    let r ← f t
    pure (addHess h v r)

/-- The inherited `Block.evaluate_hessian` (`block.py:266-299`) for a component method that may raise. -/
noncomputable def kHessianDefault (deps : List BV) (o : BV) (markings : Bool)
    (comp : PyNum → Option PyNum → Nat → List (Nat × Option PyNum) → Except NumErr PyNum) (h : PHeap) : Except NumErr PHeap :=
  match (h o).hess with
  | none => .ok h
  | some hin =>
    let rel := relevant h markings deps
    rel.foldlM (fun (h' : PHeap) p => do
      let v ← comp hin (h o).adj p.2 (rel.map fun q => (q.2, (h q.1).tlm))
      pure (addHess h' p.1 v)) h

/-- One step of the loop in `MulBlock.evaluate_hessian_component` (`adjfloat.py:510-512`). -/
noncomputable def mulHessStep (adj : Option PyNum) (idx : Nat) (acc : PyNum × Nat) (q : Nat × Option PyNum) :
    Except NumErr (PyNum × Nat) :=
  match decide (q.1 ≠ idx), q.2 with
  | true, some t => do
    let l ← need adj
    let m ← fmul l t
    pure (m, q.1)
  | _, _ => .ok (acc.1, q.1)

/-- `MulBlock.evaluate_hessian_component` (`adjfloat.py:504-513`); the loop reuses the name `other_idx`. -/
noncomputable def mulHessNum (x y hin : PyNum) (adj : Option PyNum) (idx : Nat) (rel : List (Nat × Option PyNum)) :
    Except NumErr PyNum := do
  let r ← rel.foldlM (mulHessStep adj idx) (ofFloat 0, if idx = 1 then 0 else 1)
  let m ← fmul hin (if r.2 = 0 then x else y)
  fadd r.1 m

/-- `DivBlock.evaluate_hessian` (`adjfloat.py:553-595`) after the test for `None`. -/
noncomputable def kHessianDiv (a c : BV) (hin : PyNum) (adj : Option PyNum) (h : PHeap) : Except NumErr PHeap := do
  let x := saved h a
  let y := saved h c
  let q ← ftruediv (ofFloat 1) y
  let v ← fmul hin q
  let h := addHess h a v
  let p ← fpow y (ofFloat 2)
  let q ← ftruediv x p
  let n ← fneg q
  let v ← fmul hin n
  let h := addHess h c v
  let h ← addHessWith h c (h c).tlm fun t => do
    let d ← fmul (ofFloat 2) x
    let p ← fpow y (ofInt 3)
    let q ← ftruediv d p
    let l ← need adj
    let m ← fmul l q
    fmul m t
  let p ← fpow y (ofInt 2)
  let l ← need adj
  let q ← ftruediv l p
  let mixed ← fneg q
  let h ← addHessWith h a (h c).tlm fun t => fmul t mixed
  addHessWith h c (h a).tlm fun t => fmul t mixed

/-- `PowBlock.evaluate_hessian` (`adjfloat.py:389-431`) after the test for `None`. -/
noncomputable def kHessianPow (a c : BV) (hin : PyNum) (adj : Option PyNum) (h : PHeap) : Except NumErr PHeap := do
  let x := saved h a
  let y := saved h c
  let h ← addHessWith h a (h a).tlm fun t => do
    let e ← fmul y (y.subInt 1)
    let l ← need adj
    let m ← fmul l e
    let p ← fpow x (y.subInt 2)
    let m ← fmul m p
    fmul m t
  let m ← fmul hin y
  let p ← fpow x (y.subInt 1)
  let v ← fmul m p
  let h := addHess h a v
  let h ← addHessWith h c (h c).tlm fun t => do
    let g ← fpow x.log (ofInt 2)
    let l ← need adj
    let m ← fmul l g
    let p ← fpow x y
    let m ← fmul m p
    fmul m t
  let m ← fmul hin x.log
  let p ← fpow x y
  let v ← fmul m p
  let h := addHess h c v
  let p ← fpow x (y.subInt 1)
  let e ← fmul y x.log
  let e ← fadd e (ofInt 1)
  let m ← fmul p e
  let l ← need adj
  let mixed ← fmul l m
  let h ← addHessWith h a (h c).tlm fun t => fmul t mixed
  addHessWith h c (h a).tlm fun t => fmul t mixed

/-- `evaluate_hessian` (`adjfloat.py:389-431`, `476-482`, `553-595`, `608-613`; the others inherit `block.py:266-299`). -/
noncomputable def FBlock.kEvaluateHessian (b : FBlock) (markings : Bool) (h : PHeap) : Except NumErr PHeap :=
  match b with
  | .un .neg a o =>
    match (h o).hess with
    | none => .ok h
    | some hin => do
      let n ← fneg hin
      pure (addHess h a n)
  | .un .exp a o => kHessianDefault [a] o markings (fun hin _ _ _ => .ok ((ofFloat (Real.exp (saved h a).val)).mul hin)) h
  | .un .log a o => kHessianDefault [a] o markings (fun hin _ _ _ => do
      let q ← hin.neg.div (saved h a)
      q.div (saved h a)) h
  | .bin .add a c o => kHessianDefault [a, c] o markings (fun hin _ _ _ => .ok hin) h
  | .bin .mul a c o => kHessianDefault [a, c] o markings (mulHessNum (saved h a) (saved h c)) h
  | .bin .min a c o => kHessianDefault [a, c] o markings (fun hin _ idx _ => BOp.adjNum .min (saved h a) (saved h c) hin idx) h
  | .bin .max a c o => kHessianDefault [a, c] o markings (fun hin _ idx _ => BOp.adjNum .max (saved h a) (saved h c) hin idx) h
  | .bin .sub a c o =>
    match (h o).hess with
    | none => .ok h
    | some hin => do
      let n ← fneg hin
      pure (addHess (addHess h a hin) c n)
  | .bin .div a c o =>
    match (h o).hess with
    | none => .ok h
    | some hin => kHessianDiv a c hin (h o).adj h
  | .bin .pow a c o =>
    match (h o).hess with
    | none => .ok h
    | some hin => kHessianPow a c hin (h o).adj h

/-- The shape of a block: what resetting and marking look at.  (Not in the code: dependencies and output as in `block.py:59-87`.) -/
def FBlock.shape (b : FBlock) : Block PyNum PyNum PyNum :=
  { deps := b.deps, outs := [b.out], recomputeC := fun _ _ => none, adjC := fun _ _ _ => none, tlmC := fun _ _ _ => none
    hessC := fun _ _ _ _ _ => none }

/-- `compute_gradient` (`drivers.py:5-33`) with the Python type of `adj_value`; `_ad_convert_type` makes the result an `AdjFloat`
(`control.py:48-52`).  The state after an exception is in `Verif.Model.Crash`. -/
noncomputable def kComputeGradient (t : FTape) (J : BV) (cs : List BV) (seed : PyNum) (h : PHeap) :
    Except NumErr (List ℝ × PHeap) := do
  let bs := t.map FBlock.shape
  let h := resetVariables bs .adjoint h
  let h := Function.update h J { h J with adj := some seed }
  let nodes := findRelevantNodes bs cs
  let h := markControls cs true (markAll nodes true h)
  let h ← t.reverse.foldlM (fun h b => b.kEvaluateAdj true h) h
  let h := markAll nodes false (markControls cs false h)
  pure (cs.map fun c => ((h c).adj.map PyNum.val).getD 0, h)

/-- `ReducedFunctional.derivative(adj_input)` (`reduced_functional.py:139-150`): `create_overloaded_object` knows `float`, but returns an
`int` as it is (`overloaded_type.py:28-39`), which has no `_ad_mul`. -/
noncomputable def kDerivative (t : FTape) (J : BV) (cs : List BV) (scale : ℝ) (adjInput : PyNum) (h : PHeap) :
    Except NumErr (List ℝ × PHeap) :=
  if adjInput.kind = .int then .error .attributeError else
  kComputeGradient t J cs ⟨.adj, adjInput.val * scale⟩ h

/-- `Tape.evaluate_tlm` (`tape.py:379-383`). -/
noncomputable def kEvaluateTlm (t : FTape) (markings : Bool) (h : PHeap) : Except NumErr PHeap :=
  t.foldlM (fun h b => b.kEvaluateTlm markings h) h

/-- `compute_hessian` (`drivers.py:36-75`), which stores the directions as they are given (line 60). -/
noncomputable def kComputeHessian (t : FTape) (J : BV) (cs : List BV) (ds : List PyNum) (h : PHeap) :
    Except NumErr (List ℝ × PHeap) := do
  let bs := t.map FBlock.shape
  let h := resetVariables bs .tlm h
  let h := resetVariables bs .hessian h
  let h := seedTlm cs ds h
  let nodes := findRelevantNodes bs cs
  let h ← kEvaluateTlm t true (markAll nodes true h)
  let h := markAll nodes false h
  let h := Function.update h J { h J with hess := some ⟨.adj, 0⟩ }
  let h ← t.reverse.foldlM (fun h b => b.kEvaluateHessian true h) (markAll nodes true h)
  let h := markAll nodes false h
  pure (cs.map fun c => ((h c).hess.map PyNum.val).getD 0, h)

end Pyadjoint
