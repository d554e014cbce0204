import Verif.Model.Checkpoint

/-!
# Mutable objects on a tape with checkpointing

`BlockVariable.output` is the object itself (`block_variable.py:10`), and `saved_output` falls back on it if there is no checkpoint
(`block_variable.py:57-62`).  If the object is mutable and is changed, by an operation in place or inside
`stop_annotating(modifies=...)`, all block variables made of it before see the new value.  Here recordings and later use of the tape
contain such changes.
-/

namespace Pyadjoint
namespace CTape

variable {V T A : Type*}

/-- The object whose block variables so far are `vs` is given the value `x`.  For an operation in place this follows the
recording of the block, whose output is a new block variable of the same object; for a change inside
`stop_annotating(modifies=...)` the object forgets its block variable and is given a new one when it is used next
(`tape.py:122-130`).  `block_variable.py:10, 57-62`. -/
def change (vs : List BV) (x : V) (τ : CTape V T A) : CTape V T A :=
  τ.onHeap fun h v => if v ∈ vs then { h v with output := x } else h v

/-- What the user's program does while the tape records, with mutable objects.
(The user's program, not in the code: `tape.py:229-234, 269-276`.) -/
inductive MEvent (V T A : Type*)
  | event (e : Event V T A)
  | change (vs : List BV) (x : V)

/-- One event.  `tape.py:229-234, 269-276`. -/
def mevent (τ : CTape V T A) : MEvent V T A → Except CkptError (CTape V T A)
  | .event e => τ.event e
  | .change vs x => .ok (τ.change vs x)

/-- A recording.  (The user's program, not in the code: `tape.py:229-234, 269-276`.) -/
def mrecording : List (MEvent V T A) → CTape V T A → Except CkptError (CTape V T A)
  | [], τ => .ok τ
  | e :: es, τ => match τ.mevent e with
    | .error err => .error err
    | .ok τ => mrecording es τ

/-- The blocks recorded.  (Part of the user's program: `tape.py:269-276`.) -/
def MEvent.blocks : List (MEvent V T A) → Blocks V T A
  | [] => []
  | .event (.block b) :: es => b :: MEvent.blocks es
  | .event .endTimestep :: es => MEvent.blocks es
  | .change _ _ :: es => MEvent.blocks es

end CTape
end Pyadjoint
