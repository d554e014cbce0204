import Verif.Model.Core

/-! Reachability on the dependency graph of a tape, as an inductive relation. -/

namespace Pyadjoint

variable {V T A : Type*}

/-- `v` is one of the sources `S` or is computed, directly or indirectly, from one. -/
inductive Reach (bs : Blocks V T A) (S : BV → Prop) : BV → Prop
  | base {v} : S v → Reach bs S v
  | step {b d o} : b ∈ bs → d ∈ b.deps → Reach bs S d → o ∈ b.outs → Reach bs S o

/-- One of the targets `S` is `v` or is computed, directly or indirectly, from `v`. -/
inductive CoReach (bs : Blocks V T A) (S : BV → Prop) : BV → Prop
  | base {v} : S v → CoReach bs S v
  | step {b d o} : b ∈ bs → o ∈ b.outs → CoReach bs S o → d ∈ b.deps → CoReach bs S d

end Pyadjoint
