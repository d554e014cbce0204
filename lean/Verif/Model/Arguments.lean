import Verif.Model.Callbacks

/-!
# Model: the checks of the arguments of a reduced functional

`ReducedFunctional.__call__` looks at the number and at the types of the control values before it does anything (`reduced_functional.py:208-226`).  The rest of the call, with
arbitrary callbacks, is `callFn`; `derivative` and `hessian` check nothing themselves.
-/

namespace Pyadjoint
namespace Cb

variable {σ R T C : Type*}

/-- What Python knows about classes: whether an object of a class is an instance of another one, whether it is an instance of `int` or `float`, and which class `AdjFloat` is.
Used on `reduced_functional.py:213-216`. -/
structure Types (C : Type*) where
  isinstance : C → C → Bool
  number : C → Bool
  adjFloat : C

/-- A value with its class, as given to `reduced_functional.py:194`. -/
structure Typed (C R : Type*) where
  cls : C
  val : R

/-- The loop over the values (`reduced_functional.py:212-226`), from index `i` on: the index of the first value that is refused.  `types` are the classes of the controls.  The value
converted on line 215 is dropped. -/
def Types.refused [DecidableEq C] (K : Types C) : List C → List C → Nat → Option Nat
  | c :: types, v :: values, i =>
    if K.number v ∧ c = K.adjFloat then K.refused types values (i + 1)
    else if ¬ K.isinstance v c then some i
    else K.refused types values (i + 1)
  | _, _, _ => none

/-- The argument without the classes (`reduced_functional.py:208`). -/
def plainArg : Arg (Typed C R) → Arg R
  | .single a => .single a.val
  | .list l => .list (l.map Typed.val)
  | .tuple l => .tuple (l.map Typed.val)
  | .enlist e => .enlist ⟨e.listed, e.items.map Typed.val⟩

/-- How a call ends: refused by one of the checks (`reduced_functional.py:210`, `218`, `223`; the message of the last one has an index), or as the call itself ends. -/
inductive Outcome (R : Type*)
  | wrongNumber
  | wrongType (index : Option Nat)
  | ran (a : Answer R)

/-- `ReducedFunctional.__call__` (`reduced_functional.py:193-254`) with the checks.  `types` are the classes of the controls' objects. -/
def typedCall [DecidableEq C] [Mul R] (K : Types C) (types : List C) (rf : RF R) (cb : Callbacks σ R T) (values : Arg (Typed C R)) (w : World σ R T) :
    Outcome R × World σ R T :=
  let vs := (Enlist.of values).items
  if vs.length ≠ rf.enlisted.items.length then (.wrongNumber, w) else
  match K.refused types (vs.map Typed.cls) 0 with
  | some i => (.wrongType (if vs.length = 1 then none else some i), w)
  | none =>
    let r := (callFn rf cb (plainArg values)).answer .value w
    (.ran r.1, r.2)

/-- What a user asks, with values of any class.  The methods of `reduced_functional.py:112, 163, 194`. -/
inductive TypedRequest (C R T : Type*)
  | call (values : Arg (Typed C R))
  | derivative (adjInput : R)
  | hessian (mDot : Arg T)

/-- One request.  `reduced_functional.py:112-254`. -/
def TypedRequest.run [DecidableEq C] [Add T] [Add R] [Zero R] [Mul R] (K : Types C) (types : List C) (rf : RF R) (cb : Callbacks σ R T) (w : World σ R T) :
    TypedRequest C R T → Outcome R × World σ R T
  | .call values => typedCall K types rf cb values w
  | .derivative a => let r := (derivativeFn rf cb a).answer .derivatives w; (.ran r.1, r.2)
  | .hessian d => let r := (hessianFn rf cb d).answer .derivatives w; (.ran r.1, r.2)

/-- A program that asks one request after another, going on after exceptions.  (The user's program, not in the code.) -/
def runTyped [DecidableEq C] [Add T] [Add R] [Zero R] [Mul R] (K : Types C) (types : List C) (rf : RF R) (cb : Callbacks σ R T) :
    List (TypedRequest C R T) → World σ R T → List (Outcome R) × World σ R T
  | [], w => ([], w)
  | q :: qs, w =>
    let r := q.run K types rf cb w
    let rest := runTyped K types rf cb qs r.2
    (r.1 :: rest.1, rest.2)

end Cb
end Pyadjoint
