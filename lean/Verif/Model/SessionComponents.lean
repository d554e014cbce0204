import Verif.Model.Session
import Verif.Model.ReducedApi

/-!
# `derivative_components` in a running session

`ReducedFunctional.derivative` runs its callbacks with the annotation state of the caller
(`reduced_functional.py:112-160` stops annotation only around lines 138-141), and
`pack_derivative_components` multiplies the control by `0.` for every component left out.
-/

namespace Pyadjoint
namespace Session

/-- `zero_derivative = control._ad_copy(); zero_derivative *= 0.` (`reduced_functional.py:33-34`):
`_ad_copy` of an `AdjFloat` is the object itself (`adjfloat.py:125-126`), `*=` is `__mul__`. -/
noncomputable def packZero (s : Session) (c : Nat) : Option Session :=
  (s.push 0 false).step (.bin .mul c s.objs.length)

/-- The loop of `pack_derivative_components` (`reduced_functional.py:26-36`) from index `i` with counter
`count`, on the controls of the objects `cs`. -/
noncomputable def packLoop (is : List Int) (ds : List ℝ) :
    List Nat → Nat → Nat → Session → Option (List ℝ × Session)
  | [], _, _, s => some ([], s)
  | c :: cs, i, count, s =>
    if (i : Int) ∈ is then
      match ds[count]?, packLoop is ds cs (i + 1) (count + 1) s with
      | some d, some (r, s) => some (d :: r, s)
      | _, _ => none
    else
      match s.objs[c]?, s.packZero c with
      | some o, some s =>
        match packLoop is ds cs (i + 1) count s with
        | some (r, s) => some ((o.value * 0) :: r, s)
        | none => none
      | _, _ => none

/-- `ReducedFunctional(J, [Control(c) for c in cs], derivative_components=is).derivative(adj_input=seed)`
for a nonempty tuple of components.  `reduced_functional.py:8-37, 104-160`. -/
noncomputable def derivativeComponents (s : Session) (J : Nat) (cs : List Nat) (is : List Int)
    (scale seed : ℝ) : Option (List ℝ × Session) := do
  let (vs, s) ← controls cs s
  let j ← s.objs[J]?
  if j.adj then
    let (v, s) := s.touch J j
    let sel ← extractComponents vs is
    let (ds, h) := rfDerivative s.tape.blocks v sel scale seed s.heap
    packLoop is ds cs 0 0 { s with heap := h }
  else none

end Session
end Pyadjoint
