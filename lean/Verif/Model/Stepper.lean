import Verif.Model.Checkpoint

/-!
# Model: `Tape.timestepper` as a Python iterator

`for x in tape.timestepper(iterable): …` fetches its items through `TapeTimeStepper.__next__` (`tape.py:769-785`).  The tape is any
state `W` on which `end_timestep` and the body of the loop act, both of which may raise an exception `E`; so the model covers tapes
with and without a checkpoint manager.
-/

namespace Pyadjoint
namespace Stepper

/-- A Python iterable, finite.  An *iterator* has `__next__`; a *collection* (`range`, `list`, `tuple`, …) has only `__iter__`.
(Python's iteration protocol, used at `tape.py:774, 780`.)  Producing an item may record operations (a generator that
computes): `effect` is what producing it does to the tape. -/
inductive Items (W X : Type*)
  | iterator (items : List (X × (W → W)))
  | collection (items : List (X × (W → W)))

/-- The items, without what producing them does.  (Not in the code.) -/
def Items.values {W X : Type*} : Items W X → List X
  | .iterator l => l.map (·.1)
  | .collection l => l.map (·.1)

/-- The progress bars: the default `_NullProgressBar` (`tape.py:753-766`), or one of the package `progress`, whose `iter` is a
generator over its argument (external; `tape.py:723-746`). -/
inductive Bar | null | generator
  deriving DecidableEq

/-- `progress_bar(…).iter(iterable)` (`tape.py:765-766` for the default one). -/
def Bar.iter {W X : Type*} : Bar → Items W X → Items W X
  | .null, it => it
  | .generator, .iterator l => .iterator l
  | .generator, .collection l => .iterator l

/-- What a loop may end with: `TypeError` from `next(…)` (`tape.py:780`) or an exception of the tape or the body. -/
inductive PyError (E : Type*)
  | typeError
  | raised (e : E)
  deriving DecidableEq

/-- `TapeTimeStepper` (`tape.py:769-774`). -/
structure TimeStepper (W X : Type*) where
  iterator : Items W X
  first : Bool := true

/-- `Tape.timestepper` (`tape.py:236-258`, `tape.py:771-774`). -/
def timestepper {W X : Type*} (bar : Bar) (it : Items W X) : TimeStepper W X := { iterator := bar.iter it }

/-- The outcome of `__next__`. -/
inductive Fetched (W X E : Type*)
  /-- `StopIteration` -/
  | stop
  | error (e : PyError E)
  | item (x : X) (rest : List (X × (W → W))) (w : W)

/-- `TapeTimeStepper.__next__` (`tape.py:779-785`). -/
def TimeStepper.next {W X E : Type*} (endT : W → Except E W) (s : TimeStepper W X) (w : W) : Fetched W X E :=
  match s.iterator with
  | .collection _ => .error .typeError
  | .iterator [] => .stop
  | .iterator ((x, effect) :: rest) =>
    let w := effect w
    if s.first then .item x rest w
    else match endT w with
      | .error e => .error (.raised e)
      | .ok w => .item x rest w

theorem TimeStepper.next_rest {W X E : Type*} {endT : W → Except E W} {s : TimeStepper W X} {w w' : W} {x : X}
    {rest : List (X × (W → W))} (h : s.next endT w = .item x rest w') : ∃ y, s.iterator = .iterator (y :: rest) := by
  unfold TimeStepper.next at h
  split at h
  · cases h
  · cases h
  · rename_i y effect rest' heq
    dsimp only at h
    split at h
    · cases h; exact ⟨_, heq⟩
    · split at h
      · cases h
      · cases h; exact ⟨_, heq⟩

/-- The number of items still to come (for termination). -/
def TimeStepper.length {W X : Type*} (s : TimeStepper W X) : Nat := s.iterator.values.length

/-- `for x in stepper: body(x)` (Python; the loop of `tape.py:246-247`): the values bound to `x` and the tape at the end. -/
def forLoop {W X E : Type*} (endT : W → Except E W) (body : X → W → Except E W) (s : TimeStepper W X) (w : W) :
    Except (PyError E) (List X × W) :=
  match _h : s.next endT w with
  | .stop => .ok ([], w)
  | .error e => .error e
  | .item x rest w =>
    match body x w with
    | .error e => .error (.raised e)
    | .ok w =>
      match forLoop endT body { iterator := .iterator rest, first := false } w with
      | .error e => .error e
      | .ok (xs, w) => .ok (x :: xs, w)
termination_by s.length
decreasing_by
  obtain ⟨y, hy⟩ := TimeStepper.next_rest _h
  unfold TimeStepper.length
  rw [hy]
  simp [Items.values]

end Stepper
end Pyadjoint
