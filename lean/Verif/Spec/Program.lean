import Verif.Model.Session

/-!
# What a program with `AdjFloat`s means, without tape and block variables

The specification for `Verif.Props.Recording`: a source-level reading of the program.  Every
object remembers whether its value was *computed from other objects by an annotated operation* or is
free, and what number currently stands for it if it is free.  Nothing is shared with the model except
the syntax of programs and the real functions `UOp.val`, `BOp.val`.
-/

namespace Pyadjoint.Source

/-- Where an object comes from. -/
inductive Def
  | free
  | un (op : UOp) (i : Nat)
  | bin (op : BOp) (i j : Nat)

/-- Not the result of an annotated operation. -/
def Def.isFree : Def → Bool
  | .free => true
  | _ => false

/-- The origin refers to object `c`. -/
def Def.Uses (c : Nat) : Def → Prop
  | .free => False
  | .un _ i => c = i
  | .bin _ i j => c = i ∨ c = j

/-- An object: its Python value, whether it is an `AdjFloat`, its origin, and the number that stands for
it in evaluations if it is free. -/
structure Reg where
  value : ℝ
  adj : Bool
  origin : Def
  leaf : ℝ

structure State where
  regs : List Reg := []
  annotate : Bool := true

/-- The value of an object from the values of the objects created before it. -/
noncomputable def Def.eval (env : List ℝ) (leaf : ℝ) : Def → ℝ
  | .free => leaf
  | .un op i => op.val (env.getD i 0)
  | .bin op i j => op.val (env.getD i 0) (env.getD j 0)

/-- The values of all objects when the objects in the domain of `ov` are given new values. -/
noncomputable def reeval (ov : Nat → Option ℝ) (regs : List Reg) : List ℝ :=
  regs.foldl (fun env r => env ++ [(ov env.length).getD (r.origin.eval env r.leaf)]) []

/-- Giving `xs` to the objects `cs`; if an object occurs twice the last value counts. -/
def override (cs : List Nat) (xs : List ℝ) (i : Nat) : Option ℝ :=
  (cs.zip xs).foldl (fun acc p => if p.1 = i then some p.2 else acc) none

/-- Which operations give an `AdjFloat`, and so are annotated. -/
def overloaded (op : BOp) (adjI adjJ : Bool) : Bool :=
  match op with
  | .min | .max => true
  | .add | .sub | .mul => adjI || adjJ
  | .div | .pow => adjI

/-- A new object with the given Python value. -/
def State.push (A : State) (value : ℝ) (adj : Bool) (d : Def) : State :=
  { A with regs := A.regs ++ [⟨value, adj, if A.annotate && adj then d else .free, value⟩] }

/-- All `cs` are `AdjFloat` objects. -/
def State.AreAdj (A : State) (cs : List Nat) : Prop := ∀ c ∈ cs, ∃ r, A.regs[c]? = some r ∧ r.adj = true

/-- Free objects take the values given to them, for good. -/
noncomputable def State.assign (A : State) (cs : List Nat) (xs : List ℝ) : State :=
  { A with regs := A.regs.mapIdx fun i r => { r with leaf := (override cs xs i).getD r.leaf } }

open Classical in
noncomputable def State.step (A : State) : Instr → Option State
  | .const r => some (A.push r true .free)
  | .plain r => some (A.push r false .free)
  | .un op i => (A.regs[i]?).map fun r =>
      A.push (op.val r.value) (!(op = .neg) || r.adj) (.un op i)
  | .bin op i j => (A.regs[i]?).bind fun r => (A.regs[j]?).map fun q =>
      A.push (op.val r.value q.value) (overloaded op r.adj q.adj) (.bin op i j)
  | .pause => some { A with annotate := false }
  | .cont => some { A with annotate := true }
  | .control i => if A.AreAdj [i] then some A else none
  | .collect i => if i < A.regs.length then some A else none
  | .call J cs _ xs =>
    if A.AreAdj (J :: cs) ∧ xs.length = cs.length then some (A.assign cs xs) else none
  | .interrupted cs xs _ =>
    if A.AreAdj cs ∧ xs.length = cs.length then some (A.assign cs xs) else none
  | .derivative J cs _ => if A.AreAdj (J :: cs) then some A else none
  | .crashedDerivative J cs _ _ _ => if A.AreAdj (J :: cs) then some A else none
  | .hessian J cs ds _ _ => if A.AreAdj (J :: cs) ∧ ds.length ≤ cs.length then some A else none

noncomputable def State.run (p : List Instr) (A : State) : Option State := p.foldlM State.step A

/-- The value of object `J` when the objects `cs` are given the values `xs`. -/
noncomputable def State.valueAt (A : State) (cs : List Nat) (xs : List ℝ) (J : Nat) : ℝ :=
  (reeval (override cs xs) A.regs).getD J 0

/-- Object `i` is one of `cs` or computed from one by annotated operations. -/
inductive State.DependsOn (A : State) (cs : List Nat) : Nat → Prop
  | control {i} : i ∈ cs → A.DependsOn cs i
  | op {i c r} : A.regs[i]? = some r → r.origin.Uses c → A.DependsOn cs c → A.DependsOn cs i

/-- The operation is defined in Python and differentiable at the values `val` of its operands; `vary`
says which operands vary. -/
def Def.SmoothAt (val : Nat → ℝ) (vary : Nat → Prop) : Def → Prop
  | .un .log i => 0 < val i
  | .bin .div _ j => val j ≠ 0
  | .bin .pow i j => 0 < val i ∨ (¬ vary j ∧ ∃ n : ℤ, val j = n ∧ (val i ≠ 0 ∨ 1 ≤ n))
  | .bin .min i j | .bin .max i j => val i ≠ val j
  | _ => True

/-- All annotated operations are differentiable when `cs` have the values `xs`. -/
def State.Smooth (A : State) (cs : List Nat) (xs : List ℝ) : Prop :=
  ∀ (i : Nat) (r : Reg), A.regs[i]? = some r →
    r.origin.SmoothAt (A.valueAt cs xs) (A.DependsOn cs)

/-- The controls are not results of annotated operations. -/
def State.FreeControls (A : State) (cs : List Nat) : Prop :=
  ∀ c ∈ cs, ∀ r, A.regs[c]? = some r → r.origin = .free

/-- Every control is the functional or an operand of an annotated operation. -/
def State.Used (A : State) (J : Nat) (cs : List Nat) : Prop :=
  ∀ c ∈ cs, c = J ∨ ∃ (i : Nat) (r : Reg), A.regs[i]? = some r ∧ r.origin.Uses c

/-- The operation is defined in Python and twice differentiable at the values `val` of its operands. -/
def Def.Smooth2At (val : Nat → ℝ) (vary : Nat → Prop) : Def → Prop
  | .un .log i => 0 < val i
  | .bin .div _ j => val j ≠ 0
  | .bin .pow i j => 0 < val i ∨ (¬ vary j ∧ ∃ n : ℤ, val j = n ∧ (val i ≠ 0 ∨ 2 ≤ n))
  | .bin .min i j | .bin .max i j => val i ≠ val j
  | _ => True

/-- All annotated operations are twice differentiable when `cs` have the values `xs`. -/
def State.Smooth2 (A : State) (cs : List Nat) (xs : List ℝ) : Prop :=
  ∀ (i : Nat) (r : Reg), A.regs[i]? = some r →
    r.origin.Smooth2At (A.valueAt cs xs) (A.DependsOn cs)

/-- No `exp`, no `log`, and no product except squares `a * a`. -/
def Def.HessSafe : Def → Prop
  | .un .exp _ | .un .log _ => False
  | .bin .mul i j => i = j
  | _ => True

/-- Every annotated operation that depends on a control is `HessSafe`. -/
def State.HessSafe (A : State) (cs : List Nat) : Prop :=
  ∀ (i : Nat) (r : Reg), A.regs[i]? = some r → A.DependsOn cs i → r.origin.HessSafe

/-- A quotient or a power. -/
def Def.IsQuotientOrPower : Def → Prop
  | .bin .div _ _ | .bin .pow _ _ => True
  | _ => False

/-- The results of all annotated quotients and powers depend on a control. -/
def State.QuotientsVary (A : State) (cs : List Nat) : Prop :=
  ∀ (i : Nat) (r : Reg), A.regs[i]? = some r → r.origin.IsQuotientOrPower → A.DependsOn cs i

end Pyadjoint.Source
