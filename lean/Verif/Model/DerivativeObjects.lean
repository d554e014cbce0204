import Verif.Model.Aliasing
import Verif.Model.SecondOrder
import Verif.Model.Reduced

/-!
# Derivatives and directions as objects shared with the caller

`compute_gradient` and `compute_hessian` (`drivers.py:5-75`) on the objects of `Verif.Model.Aliasing`.  For types whose
`_ad_convert_type` returns the value it was given (as that of the NumPy array type does), `Control.get_derivative` and
`Control.get_hessian` return the very object that is the control's `adj_value` or `hessian_value` (`control.py:48-58`), and
the directions given to `compute_hessian` become the controls' `tlm_value` (`drivers.py:57-58`, `control.py:94-100`).  This file
models a caller who keeps those objects and changes them.
-/

namespace Pyadjoint

variable {V T A K : Type*}

namespace Objs

/-- Setting the attributes to `None` (`block_variable.py:42-50`). -/
def clear [DecidableEq K] (ks : List K) (s : Objs K A) : Objs K A :=
  { s with ref := ks.foldl (fun r k => Function.update r k none) s.ref }

/-- Assigning an object to an attribute (`drivers.py:58`). -/
def setRef [DecidableEq K] (k : K) (o : Nat) (s : Objs K A) : Objs K A := { s with ref := Function.update s.ref k (some o) }

/-- Assigning a new object to an attribute (`drivers.py:24`, `67-68`). -/
def setNew [DecidableEq K] (k : K) (x : A) (s : Objs K A) : Objs K A := (s.alloc x).2.setRef k s.next

/-- Changing an object that one holds.  (Not in the code: what the caller does, `g[:] = x`.) -/
def write (o : Nat) (x : A) (s : Objs K A) : Objs K A := { s with store := Function.update s.store o x }

end Objs

/-- The variables that `Tape.reset_variables` and variants visit (`tape.py:391-401`, `block.py:89-99`). -/
def tapeVars (bs : Blocks V T A) : List BV := bs.reverse.flatMap fun b => b.deps ++ b.outs

namespace RState

/-- An operation on flags and checkpoints only.  (Not in the code; derivative fields of `base` are not used.) -/
def onBase (g : Heap V T A → Heap V T A) (s : RState V T A) : RState V T A := { s with base := g s.base }

/-- The state part of `compute_gradient` (`drivers.py:21-30`).  The adjoint value is a new object, since
`ReducedFunctional.derivative` multiplies it by the scale (`reduced_functional.py:141`). -/
def gradientState [Add A] (inplace : Bool) (bs : List (RBlock V T A)) (J : BV) (cs : List BV) (a : A) (s : RState V T A) :
    RState V T A :=
  let ts := bs.map RBlock.block
  let s := { s with cot := s.cot.clear ((tapeVars ts).map fun v => (false, v)) }
  let s := { s with cot := s.cot.setNew (false, J) a }
  let nodes := findRelevantNodes ts cs
  let s := (s.onBase (markAll nodes true)).onBase (markControls cs true)
  let s := s.evaluateAdj inplace bs true
  (s.onBase (markControls cs false)).onBase (markAll nodes false)

/-- `m[i].tlm_value = m_dot[i]` (`drivers.py:57-58`): the objects themselves. -/
def seedTlm (cs : List BV) (os : List Nat) (s : RState V T A) : RState V T A :=
  { s with tan := (cs.zip os).foldl (fun t p => t.setRef p.1 p.2) s.tan }

/-- The state part of `compute_hessian` (`drivers.py:51-72`). -/
def hessianState [Add T] [Add A] [Zero A] (inplace : Bool) (bs : List (RBlock V T A)) (J : BV) (cs : List BV) (os : List Nat)
    (s : RState V T A) : RState V T A :=
  let ts := bs.map RBlock.block
  let s := { s with tan := s.tan.clear (tapeVars ts) }
  let s := { s with cot := s.cot.clear ((tapeVars ts).map fun v => (true, v)) }
  let s := s.seedTlm cs os
  let nodes := findRelevantNodes ts cs
  let s := ((s.onBase (markAll nodes true)).evaluateTlm inplace bs true).onBase (markAll nodes false)
  let s := { s with cot := s.cot.setNew (true, J) 0 }
  ((s.onBase (markAll nodes true)).evaluateHessian inplace bs true).onBase (markAll nodes false)

end RState

/-- A tape and the objects the caller holds: directions, and derivatives that were returned.
(Not in the code: the caller's variables.) -/
structure DWorld (V T A : Type*) where
  st : RState V T A
  dirs : List Nat
  res : List Nat

/-- What the caller does.  Directions and results are numbered in the order in which they came to be.
(Not in the code: the caller's program.) -/
inductive DEvent (V T A : Type*)
  /-- make a direction -/
  | newDir (t : T)
  /-- change a direction -/
  | setDir (i : Nat) (t : T)
  /-- change a derivative that was returned -/
  | setRes (i : Nat) (a : A)
  /-- `rf(values)` -/
  | call (cs : List BV) (xs : List V)
  /-- `rf.derivative(adj_input)`, of which the results are kept -/
  | derivative (J : BV) (cs : List BV) (a : A)
  /-- `rf.hessian(directions)`, of which the results are kept -/
  | hessian (J : BV) (cs : List BV) (ks : List Nat)

namespace DWorld

/-- `Control.get_derivative`, `Control.get_hessian` (`control.py:48-58`): the object that is the attribute, or a new zero. -/
def give [Zero A] (k : Bool × BV) (w : DWorld V T A) : DWorld V T A :=
  match w.st.cot.ref k with
  | some o => { w with res := w.res ++ [o] }
  | none => { w with st := { w.st with cot := (w.st.cot.alloc 0).2 }, res := w.res ++ [w.st.cot.next] }

/-- One thing the caller does: `rf(values)` is `reduced_functional.py:230-244`, the derivative is `drivers.py:21-33`, the
Hessian is `drivers.py:51-75`. -/
def step [Add T] [Add A] [Zero A] (inplace : Bool) (bs : List (RBlock V T A)) (w : DWorld V T A) :
    DEvent V T A → DWorld V T A
  | .newDir t => { w with st := { w.st with tan := (w.st.tan.alloc t).2 }, dirs := w.dirs ++ [w.st.tan.next] }
  | .setDir i t => (w.dirs[i]?).elim w fun o => { w with st := { w.st with tan := w.st.tan.write o t } }
  | .setRes i a => (w.res[i]?).elim w fun o => { w with st := { w.st with cot := w.st.cot.write o a } }
  | .call cs xs => { w with st := w.st.onBase (rfEval (bs.map RBlock.block) cs xs) }
  | .derivative J cs a =>
    cs.foldl (fun w c => w.give (false, c)) { w with st := w.st.gradientState inplace bs J cs a }
  | .hessian J cs ks =>
    cs.foldl (fun w c => w.give (true, c))
      { w with st := w.st.hessianState inplace bs J cs (ks.filterMap fun i => w.dirs[i]?) }

/-- What the caller sees: the values of the directions and of all results, as they are now, and the values of variables.
(Not in the code.) -/
def seen (w : DWorld V T A) : List T × List A × (BV → V) :=
  (w.dirs.map w.st.tan.store, w.res.map w.st.cot.store, saved w.st.base)

end DWorld

end Pyadjoint
