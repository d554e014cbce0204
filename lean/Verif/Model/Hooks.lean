import Verif.Model.Reduced
import Verif.Model.SecondOrder

/-!
# The hooks of a block

`block.py`: a sweep calls `prepare_*` of a block once and then `*_component` for every relevant variable, handing on what `prepare_*` returned.
The sweeps here also record which methods they call.
-/

namespace Pyadjoint

variable {V T A P : Type*}

/-- A block with the `prepare_*` and `*_component` methods a subclass overrides (`block.py:106-385`).  `P` is the type of what the `prepare_*` methods
return.  The relevant variables are given by their indices, for the Hessian also with their tangent values. -/
structure HBlock (V T A P : Type*) where
  deps : List BV
  outs : List BV
  prepareRecompute : List V → List Nat → P
  recomputeC : List V → Nat → P → Option V
  prepareAdj : List V → List (Option A) → List Nat → P
  adjC : List V → List (Option A) → Nat → P → Option A
  prepareTlm : List V → List (Option T) → List Nat → P
  tlmC : List V → List (Option T) → Nat → P → Option T
  prepareHess : List V → List (Option A) → List (Option A) → List (Nat × Option T) → P
  hessC : List V → List (Option A) → List (Option A) → Nat → List (Nat × Option T) → P → Option A

/-- A call of a `prepare_*` method of the block at position `j` of the tape with the given relevant indices, or of a `*_component` method with the index `i`.
(Not in the code: what an observer sees.) -/
inductive HookCall
  | prepare (j : Nat) (rel : List Nat)
  | component (j i : Nat)
  deriving DecidableEq

/-- The calls made when the indices `rel` are relevant (`block.py:136-145, 216-225, 287-299, 356-363`). -/
def hookCalls (j : Nat) (rel : List Nat) : List HookCall := .prepare j rel :: rel.map (.component j)

namespace HBlock

/-- `Block.evaluate_adj` (`block.py:106-145`), with the calls it makes. -/
def evaluateAdj [Add A] (b : HBlock V T A P) (j : Nat) (markings : Bool) (s : Heap V T A × List HookCall) : Heap V T A × List HookCall :=
  let h := s.1
  let adjInputs := b.outs.map fun o => (h o).adj
  if adjInputs.all Option.isNone then s else
  let inputs := b.deps.map (saved h)
  let rel := relevant h markings b.deps
  if rel.isEmpty then s else
  let prepared := b.prepareAdj inputs adjInputs (rel.map Prod.snd)
  (rel.foldl (fun h p => addAdj? h p.1 (b.adjC inputs adjInputs p.2 prepared)) h, s.2 ++ hookCalls j (rel.map Prod.snd))

/-- `Block.evaluate_tlm` (`block.py:186-225`), with the calls it makes. -/
def evaluateTlm [Add T] (b : HBlock V T A P) (j : Nat) (markings : Bool) (s : Heap V T A × List HookCall) : Heap V T A × List HookCall :=
  let h := s.1
  let tlmInputs := b.deps.map fun d => (h d).tlm
  if tlmInputs.all Option.isNone then s else
  let inputs := b.deps.map (saved h)
  let rel := relevant h markings b.outs
  if rel.isEmpty then s else
  let prepared := b.prepareTlm inputs tlmInputs (rel.map Prod.snd)
  (rel.foldl (fun h p => addTlm? h p.1 (b.tlmC inputs tlmInputs p.2 prepared)) h, s.2 ++ hookCalls j (rel.map Prod.snd))

/-- `Block.evaluate_hessian` (`block.py:266-299`), with the calls it makes. -/
def evaluateHessian [Add A] (b : HBlock V T A P) (j : Nat) (markings : Bool) (s : Heap V T A × List HookCall) : Heap V T A × List HookCall :=
  let h := s.1
  let hessInputs := b.outs.map fun o => (h o).hess
  let adjInputs := b.outs.map fun o => (h o).adj
  if hessInputs.all Option.isNone then s else
  let inputs := b.deps.map (saved h)
  let rel := relevant h markings b.deps
  if rel.isEmpty then s else
  let tangents := rel.map fun q => (q.2, (h q.1).tlm)
  let prepared := b.prepareHess inputs hessInputs adjInputs tangents
  (rel.foldl (fun h' p => addHess? h' p.1 (b.hessC inputs hessInputs adjInputs p.2 tangents prepared)) h, s.2 ++ hookCalls j (rel.map Prod.snd))

/-- `Block.recompute` (`block.py:330-363`), with the calls it makes. -/
def recompute (b : HBlock V T A P) (j : Nat) (markings : Bool) (s : Heap V T A × List HookCall) : Heap V T A × List HookCall :=
  let h := s.1
  if b.outs.any fun o => (h o).isControl then s else
  let inputs := b.deps.map (saved h)
  let rel := relevant h markings b.outs
  if rel.isEmpty then s else
  let prepared := b.prepareRecompute inputs (rel.map Prod.snd)
  (rel.foldl (fun h p => setCkpt? h p.1 (b.recomputeC inputs p.2 prepared)) h, s.2 ++ hookCalls j (rel.map Prod.snd))

/-- The block without hooks: every component prepares for itself, as if it were the only relevant one; a recomputation prepares for all outputs.
(Not in the code; it connects this model with `Verif.Model.Core`.) -/
def fuse (b : HBlock V T A P) : Block V T A where
  deps := b.deps
  outs := b.outs
  recomputeC xs i := b.recomputeC xs i (b.prepareRecompute xs (List.range b.outs.length))
  adjC xs ls i := b.adjC xs ls i (b.prepareAdj xs ls [i])
  tlmC xs ts i := b.tlmC xs ts i (b.prepareTlm xs ts [i])
  hessC xs hs as i rel := b.hessC xs hs as i rel (b.prepareHess xs hs as rel)

end HBlock

/-- A tape of blocks with hooks (`tape.py:337-350`). -/
abbrev HTape (V T A P : Type*) := List (HBlock V T A P)

namespace HTape

/-- The tape without hooks.  (Not in the code.) -/
def fuse (bs : HTape V T A P) : Blocks V T A := bs.map HBlock.fuse

/-- `Tape.evaluate_adj` (`tape.py:362-377`), with the calls. -/
def evaluateAdj [Add A] (bs : HTape V T A P) (markings : Bool) (s : Heap V T A × List HookCall) : Heap V T A × List HookCall :=
  bs.zipIdx.reverse.foldl (fun s b => b.1.evaluateAdj b.2 markings s) s

/-- `Tape.evaluate_tlm` (`tape.py:379-383`), with the calls. -/
def evaluateTlm [Add T] (bs : HTape V T A P) (markings : Bool) (s : Heap V T A × List HookCall) : Heap V T A × List HookCall :=
  bs.zipIdx.foldl (fun s b => b.1.evaluateTlm b.2 markings s) s

/-- `Tape.evaluate_hessian` (`tape.py:385-389`), with the calls. -/
def evaluateHessian [Add A] (bs : HTape V T A P) (markings : Bool) (s : Heap V T A × List HookCall) : Heap V T A × List HookCall :=
  bs.zipIdx.reverse.foldl (fun s b => b.1.evaluateHessian b.2 markings s) s

/-- The replay loop (`reduced_functional.py:236-244`), with the calls. -/
def recompute (bs : HTape V T A P) (s : Heap V T A × List HookCall) : Heap V T A × List HookCall :=
  bs.zipIdx.foldl (fun s b => b.1.recompute b.2 false s) s

/-- `ReducedFunctional.__call__` (`reduced_functional.py:230-244`), with the calls. -/
def rfEval (bs : HTape V T A P) (cs : List BV) (xs : List V) (h : Heap V T A) : Heap V T A × List HookCall :=
  let s := bs.recompute (markControls cs true (updateControls cs xs h), [])
  (markControls cs false s.1, s.2)

/-- `compute_gradient` (`drivers.py:5-33`), with the calls. -/
def computeGradient [Add A] [Zero A] (bs : HTape V T A P) (J : BV) (cs : List BV) (adjValue : A) (h : Heap V T A) :
    List A × Heap V T A × List HookCall :=
  let h := resetVariables bs.fuse .adjoint h
  let h := Function.update h J { h J with adj := some adjValue }
  let nodes := findRelevantNodes bs.fuse cs
  let s := bs.evaluateAdj true (markControls cs true (markAll nodes true h), [])
  let h := markAll nodes false (markControls cs false s.1)
  (cs.map (getDerivative h), h, s.2)

/-- `compute_hessian` (`drivers.py:36-75`), with the calls of the tangent sweep and those of the Hessian sweep. -/
def computeHessian [Add T] [Add A] [Zero A] (bs : HTape V T A P) (J : BV) (cs : List BV) (ds : List T) (h : Heap V T A) :
    List A × Heap V T A × List HookCall × List HookCall :=
  let h := resetVariables bs.fuse .tlm h
  let h := resetVariables bs.fuse .hessian h
  let h := seedTlm cs ds h
  let nodes := findRelevantNodes bs.fuse cs
  let s₁ := bs.evaluateTlm true (markAll nodes true h, [])
  let h := markAll nodes false s₁.1
  let h := Function.update h J { h J with hess := some 0 }
  let s₂ := bs.evaluateHessian true (markAll nodes true h, [])
  let h := markAll nodes false s₂.1
  (cs.map (getHessian h), h, s₁.2, s₂.2)

end HTape
end Pyadjoint
