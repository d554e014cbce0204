import Verif.Model.Core

/-! What it means to run the recorded operations again with other values of the controls. -/

namespace Pyadjoint

variable {V T A : Type*}

/-- `val` gives every variable its value when the operations `bs` are executed with values `xs` for the
controls `cs`: the other inputs keep their recorded value `out`. -/
structure IsRun (bs : Blocks V T A) (cs : List BV) (xs : List V) (out val : BV → V) : Prop where
  control : ∀ (i : Nat) (c : BV) (x : V), cs[i]? = some c → xs[i]? = some x → val c = x
  input : ∀ v, v ∉ cs → (∀ b ∈ bs, v ∉ b.outs) → val v = out v
  block : ∀ b ∈ bs, ∀ (i : Nat) (o : BV), b.outs[i]? = some o →
    b.recomputeC (b.deps.map val) i = some (val o)

end Pyadjoint
