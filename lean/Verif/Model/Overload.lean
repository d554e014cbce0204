import Mathlib.Data.List.Basic

/-!
# `overload_function`

Models `pyadjoint/overloaded_function.py` with `annotate_tape`, `stop_annotating` (`pyadjoint/tape.py:94-158`),
`Block.pop_kwargs` (`pyadjoint/block.py:27-37`) and `create_overloaded_object` (`pyadjoint/overloaded_type.py:12-40`), for
arbitrary functions, which may themselves call overloaded functions, change the annotation flag, and raise.

Not modelled: several tapes, the values blocks store (`Verif.Model.Core`), functions that change their arguments.
-/

namespace Pyadjoint
namespace Ovl

/-- A Python value: a plain one, or a reference to an overloaded object.  Arguments in `overloaded_function.py:22-44`. -/
inductive Val (V : Type*)
  | plain (v : V)
  | over (i : Nat)

/-- A recorded block: the keyword arguments its constructor got, dependencies and outputs (block variables).
`overloaded_function.py:25-27`, `block.py:15-25`. -/
structure Rec (V : Type*) where
  kw : List (String × V)
  deps : List Nat
  outs : List Nat

/-- The state: annotation flag, values of the overloaded objects, their block variables (none for objects without, and for numbers
not yet given to an object), the objects of block variables, and the tape.  `tape.py:12-13, 192`, `overloaded_type.py:129-143`. -/
structure World (V : Type*) where
  enabled : Bool
  vals : Nat → V
  nextObj : Nat
  ref : Nat → Option Nat
  owner : Nat → Nat
  nextBv : Nat
  tape : List (Rec V)

/-- The code of a function, as the tree of what it does: return, raise, switch annotation (`pause_annotation`,
`continue_annotation`, `tape.py:20-30`), read an object's value, or call an overloaded function with the given `pop_kwargs_keys`,
arguments, `annotate` keyword, other keywords and code.  What it does next may depend on everything it got so far. -/
inductive Code (V : Type)
  | ret (outs : List (Val V))
  | raise
  | flag (b : Bool) (k : Code V)
  | read (i : Nat) (k : V → Code V)
  | call (keys : List String) (args : List (Val V)) (annotate : Option Bool) (kw : List (String × V))
      (body : List (String × V) → Code V) (k : List (Val V) → Code V)

variable {V : Type}

/-- What is left of `kwargs` after `pop_kwargs` (`block.py:27-37`). -/
def rest (keys : List String) (kw : List (String × V)) : List (String × V) := kw.filter fun p => p.1 ∉ keys

/-- What `pop_kwargs` takes (`block.py:27-37`), updated by the rest (`overloaded_function.py:26-27`). -/
def blockKw (keys : List String) (kw : List (String × V)) : List (String × V) := kw.filter (fun p => p.1 ∈ keys) ++ rest keys kw

/-- `dep.block_variable` (`overloaded_type.py:127-130`) in `add_dependency` (`block.py:43-57`). -/
def blockVar (w : World V) (i : Nat) : World V × Nat :=
  match w.ref i with
  | some b => (w, b)
  | none => ({ w with
      ref := Function.update w.ref i (some w.nextBv), owner := Function.update w.owner w.nextBv i, nextBv := w.nextBv + 1 },
      w.nextBv)

/-- The block class's constructor: `add_dependency` for the overloaded arguments in order.  What else a user's constructor does is
not modelled.  `overloaded_function.py:27`, `block.py:43-57`. -/
def construct (w : World V) : List (Val V) → World V × List Nat
  | [] => (w, [])
  | .plain _ :: l => construct w l
  | .over i :: l =>
    let (w, b) := blockVar w i
    let (w, bs) := construct w l
    (w, b :: bs)

/-- `create_overloaded_object` (`overloaded_type.py:12-40`): overloaded objects are returned as they are, values of registered types are
wrapped, others are returned as they are (with a warning). -/
def convert (reg : V → Bool) (w : World V) : Val V → World V × Val V
  | .over i => (w, .over i)
  | .plain v =>
    if reg v then
      ({ w with vals := Function.update w.vals w.nextObj v, nextObj := w.nextObj + 1 }, .over w.nextObj)
    else (w, .plain v)

/-- The loop of `overloaded_function.py:33-36`. -/
def convertAll (reg : V → Bool) (w : World V) : List (Val V) → World V × List (Val V)
  | [] => (w, [])
  | x :: l =>
    let (w, y) := convert reg w x
    let (w, ys) := convertAll reg w l
    (w, y :: ys)

/-- `block.add_output(out.create_block_variable())` for each output (`overloaded_function.py:38-40`, `overloaded_type.py:140-142`);
`none`: an output that is not overloaded has no `create_block_variable`. -/
def addOutputs (w : World V) : List (Val V) → World V × Option (List Nat)
  | [] => (w, some [])
  | .plain _ :: _ => (w, none)
  | .over i :: l =>
    let b := w.nextBv
    let w := { w with
      ref := Function.update w.ref i (some b), owner := Function.update w.owner b i, nextBv := b + 1 }
    let (w, r) := addOutputs w l
    (w, r.map (b :: ·))

/-- `tape.add_block(block)` (`overloaded_function.py:41-42`). -/
def finish (kw : List (String × V)) (deps : List Nat) (ys : List (Val V)) (w : World V) : Option (List (Val V)) × World V :=
  match addOutputs w ys with
  | (w, none) => (none, w)
  | (w, some outs) => (some ys, { w with tape := w.tape ++ [⟨kw, deps, outs⟩] })

/-- `_overloaded_function` (`overloaded_function.py:22-44`) for the code `body`; `none` is an exception.  The exit of
`stop_annotating` (line 30) runs also then. -/
def callWith (reg : V → Bool) (runBody : List (String × V) → World V → Option (List (Val V)) × World V) (keys : List String)
    (args : List (Val V)) (annotate : Option Bool) (kw : List (String × V)) (w : World V) : Option (List (Val V)) × World V :=
  if w.enabled && annotate.getD true then
    let (w, deps) := construct w args
    let saved := w.enabled
    let (r, w) := runBody (rest keys kw) { w with enabled := false }
    let w := { w with enabled := saved }
    match r with
    | none => (none, w)
    | some outs =>
      let (w, ys) := convertAll reg w outs
      finish (blockKw keys kw) deps ys w
  else
    let saved := w.enabled
    let (r, w) := runBody kw { w with enabled := false }
    let w := { w with enabled := saved }
    match r with
    | none => (none, w)
    | some outs =>
      let (w, ys) := convertAll reg w outs
      (some ys, w)

/-- Run code.  (The user's function, not in the code; called at `overloaded_function.py:30`.) -/
def run (reg : V → Bool) : Code V → World V → Option (List (Val V)) × World V
  | .ret outs, w => (some outs, w)
  | .raise, w => (none, w)
  | .flag b k, w => run reg k { w with enabled := b }
  | .read i k, w => run reg (k (w.vals i)) w
  | .call keys args annotate kw body k, w =>
    match callWith reg (fun kw => run reg (body kw)) keys args annotate kw w with
    | (none, w) => (none, w)
    | (some ys, w) => run reg (k ys) w

end Ovl
end Pyadjoint
