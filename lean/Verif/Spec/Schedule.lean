import Verif.Model.Checkpoint

/-! What a well-formed schedule is, independently of the checkpoint manager. -/

namespace Pyadjoint

/-- The actions `as` start with forward actions that advance from step `n0` to step `N` without gap
or overlap, followed by the end of the forward sweep.  The last of them may be unbounded. -/
inductive Tiling : Nat → Nat → List Action → Prop
  | done (N : Nat) (rest : List Action) : Tiling N N (.endForward :: rest)
  | step (n0 n1 N : Nat) (wi wa : Bool) (st : Storage) (as : List Action) (hlt : n0 < n1) (hle : n1 ≤ N)
      (h : Tiling n1 N as) : Tiling n0 N (.forward n0 (some n1) wi wa st :: as)
  | last (n0 N : Nat) (wi wa : Bool) (st : Storage) (as : List Action) (hlt : n0 < N)
      (h : Tiling N N as) : Tiling n0 N (.forward n0 none wi wa st :: as)

/-- Well-formed schedules: either made for a given number of steps, which the forward actions tile, or
unbounded, ending the forward sweep when told the number of steps. -/
def CTape.Schedule.WellFormed (sch : CTape.Schedule) : Prop :=
  (sch.maxN ≠ 0 ∧ Tiling 0 sch.maxN sch.acts) ∨
  (sch.maxN = 0 ∧ ∃ wi wa st rest, sch.acts = .forward 0 none wi wa st :: rest ∧
    ∀ N, 0 < N → ∃ rest', sch.afterFinal N = .endForward :: rest')

/-- The steps whose adjoint the actions evaluate, in order. -/
def reversedSteps : List Action → List Nat
  | [] => []
  | .reverse n1 n0 _ :: as => CTape.reverseRange n1 n0 ++ reversedSteps as
  | .forward _ _ _ _ _ :: as => reversedSteps as
  | .copy _ _ :: as => reversedSteps as
  | .move _ _ :: as => reversedSteps as
  | .endForward :: as => reversedSteps as
  | .endReverse :: as => reversedSteps as

end Pyadjoint
