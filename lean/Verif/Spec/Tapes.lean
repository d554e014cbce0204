import Verif.Model.Timesteps

/-!
# What tapes mean: independent values

Every tape is just a value, the list of its timesteps, and an operation on one tape touches no other.
-/

namespace Pyadjoint.Spec

open Pyadjoint

variable {V T A : Type*}

/-- A timestep: its blocks and two sets of variables. -/
@[ext] structure Step (V T A : Type*) where
  blocks : Blocks V T A
  state : OSet BV := ⟨[]⟩
  adjDeps : OSet BV := ⟨[]⟩

/-- All tapes, the number of tapes created, and the last use of every variable. -/
structure Tapes (V T A : Type*) where
  tapes : Nat → List (Step V T A) := fun _ => []
  count : Nat := 0
  lastUse : BV → Int := fun _ => -1

/-- At least one timestep. -/
def ensure : List (Step V T A) → List (Step V T A)
  | [] => [{ blocks := [] }]
  | l => l

/-- Add a block to the last timestep. -/
def addLast (l : List (Step V T A)) (b : Block V T A) : List (Step V T A) :=
  l.dropLast ++ (l.getLast?.map fun x => { x with blocks := x.blocks ++ [b] }).toList

/-- Change one tape. -/
def Tapes.upd (s : Tapes V T A) (t : Nat) (l : List (Step V T A)) : Tapes V T A :=
  { s with tapes := Function.update s.tapes t l }

/-- A use of `v`: it enters the states of the steps after its last use. -/
def useStep (v : BV) (n : Nat) (l : List (Step V T A)) : List (Step V T A) :=
  l.take n ++ (l.drop n).map fun x => { x with state := x.state.add v }

/-- Production of `v`. -/
def makeStep (v : BV) (n : Nat) (l : List (Step V T A)) : List (Step V T A) :=
  l.take n ++ (l.drop n).map fun x => { x with adjDeps := x.adjDeps.add v }

/-- New blocks for the timesteps; the states lose the variables not satisfying `keep`. -/
def rebuild (keep : BV → Bool) (l : List (Step V T A)) (bs : List (Blocks V T A)) : List (Step V T A) :=
  List.zipWith (fun x b => { blocks := b, state := ⟨x.state.elems.filter keep⟩ }) l bs

/-- One operation on the values. -/
def Tapes.step (s : Tapes V T A) : TapeOp V T A → Tapes V T A
  | .newTape => { s.upd s.count [] with count := s.count + 1 }
  | .copy t => { s.upd s.count (s.tapes t) with count := s.count + 1 }
  | .clear t => s.upd t []
  | .addBlock t b => s.upd t (addLast (ensure (s.tapes t)) b)
  | .endTimestep t => s.upd t (s.tapes t ++ [{ blocks := [] }])
  | .depend t v =>
    let l := ensure (s.tapes t)
    { s.upd t (useStep v (s.lastUse v + 1).toNat l) with
      lastUse := Function.update s.lastUse v ((l.length - 1 : Nat) : Int) }
  | .output t v =>
    let last : Int := ((s.tapes t).length - 1 : Nat)
    { s.upd t (makeStep v last.toNat (ensure (s.tapes t))) with
      lastUse := Function.update s.lastUse v last }
  | .optControls t cs =>
    match optimizeForControls ((s.tapes t).map (·.blocks)) cs with
    | none => s
    | some steps => s.upd t (rebuild (fun _ => true) (s.tapes t) steps)
  -- `World.retainedNodes` is characterised by `retained_iff`: the nodes that contribute to a functional
  | .optFunctionals t fs =>
    s.upd t (rebuild (fun v => decide (v ∈ World.retainedNodes ((s.tapes t).map (·.blocks)) fs)) (s.tapes t)
      (optimizeForFunctionals ((s.tapes t).map (·.blocks)) fs))

end Pyadjoint.Spec
