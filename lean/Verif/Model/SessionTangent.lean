import Verif.Model.Session

/-!
# Tangents in a session

There is no driver for tangents in the package: the user sets `tlm_value` of block variables and calls `tape.evaluate_tlm()`.
-/

namespace Pyadjoint
namespace Session

/-- With annotation switched off: `tape.reset_tlm_values()`, `c.block_variable.tlm_value = d` for the controls, `tape.evaluate_tlm()`, and
`J.block_variable.tlm_value` (`tape.py:379-383, 399-401`, `block_variable.py:27-29`).  More directions than controls are an `IndexError`.
Simplified: `Control` objects are made for the controls, as for a reduced functional. -/
noncomputable def tangent (s : Session) (J : Nat) (cs : List Nat) (ds : List ℝ) : Option (Option ℝ × Session) := do
  let (r, s) ← s.functional J cs
  if r.2.length < ds.length then none else
  let h := s.tape.evaluateTlm false (seedTlm r.2 ds (resetVariables s.tape.blocks .tlm s.heap))
  pure ((h r.1).tlm, { s with heap := h })

end Session
end Pyadjoint
