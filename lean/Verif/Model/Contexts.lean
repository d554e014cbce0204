import Mathlib.Logic.Function.Basic

/-!
# Annotation flag, working tape and block variables of mutable objects

`pyadjoint/tape.py:15-158` (the global flag `_annotation_enabled`, the global `_working_tape` and the context
managers), and the weak reference of an overloaded object to its block variable (`overloaded_type.py:101-143`).

Programs are finite trees of statements.  A recursive Python function is represented by the tree of the calls it
makes.  Context managers are used through `with` or as decorators, so they nest properly; suspended generators are
not modelled, nor are calls of `__enter__` and `__exit__` by hand.
-/

namespace Pyadjoint
namespace Ctx

/-- Statements.  `c` and `d` are the identities of `stop_annotating` and `set_working_tape` objects, `v` and `o` of
overloaded objects, `t` of tapes; `none` as a tape is the default argument, for which a new `Tape()` is created.
(The user's program; the statements are calls of `tape.py:16-160` and annotated operations.) -/
inductive Stmt (V : Type*)
  /-- nothing -/
  | skip
  /-- `pause_annotation()` -/
  | pause
  /-- `continue_annotation()` -/
  | cont
  /-- an exception -/
  | raise
  /-- look at `annotate_tape()` and `get_working_tape()` -/
  | observe
  | seq (p q : Stmt V)
  /-- `try: p except Exception: q` -/
  | attempt (p q : Stmt V)
  /-- `with c: p`, or a call of a function with body `p` decorated with `c` -/
  | stopping (c : Nat) (p : Stmt V)
  /-- `with set_working_tape(t): p` -/
  | withTape (t : Option Nat) (p : Stmt V)
  /-- `set_working_tape(t)` -/
  | setTape (t : Option Nat)
  /-- `@set_working_tape(t)` at the definition of the function `d` -/
  | decorate (d : Nat) (t : Option Nat)
  /-- a call of the decorated function `d` whose body does `p` -/
  | callDecorated (d : Nat) (p : Stmt V)
  /-- an operation with the dependencies `vs` that stores its result in `o`, recorded if annotation is on -/
  | op (vs : List Nat) (o : Nat) (x : V)
  /-- the value of `v` is changed without annotation -/
  | assign (v : Nat) (x : V)

/-- A recorded block: block variables of the dependencies and of the output.  `block.py:15-25, 43-78`. -/
structure Entry where
  deps : List Nat
  out : Nat

/-- The state.  `stacks c` is `_orig_annotation_enabled` of object `c`, `mods c` its argument `modifies`
(`none` for `None`), `old d` is `old_tape` of object `d`.  `ref v` is the block variable of object `v`, `owner b` the
object of block variable `b`, `ckpt b` its checkpoint.  `tape.py:12-13, 76-83, 107-111`, `overloaded_type.py:101-143`. -/
structure World (V : Type*) where
  enabled : Bool := true
  stacks : Nat → List Bool := fun _ => []
  mods : Nat → Option (List Nat) := fun _ => none
  tape : Nat := 0
  nextTape : Nat := 1
  old : Nat → Nat := fun _ => 0
  log : List (Bool × Nat) := []
  vals : Nat → V
  ref : Nat → Option Nat := fun _ => none
  next : Nat := 0
  owner : Nat → Nat := fun _ => 0
  ckpt : Nat → Option V := fun _ => none
  entries : Nat → List Entry := fun _ => []

namespace World

variable {V : Type*}

/-- `if self.modifies and len(self._orig_annotation_enabled) != 0` (`tape.py:117-120`).  Simplified: `modifies` counts
as true if it names a variable; for a single object Python asks the object itself. -/
def refuses (w : World V) (c : Nat) : Bool :=
  match w.mods c with
  | none => false
  | some vs => !vs.isEmpty && !(w.stacks c).isEmpty

/-- `stop_annotating.__enter__` after the check (`tape.py:119-120`). -/
def enter (w : World V) (c : Nat) : World V :=
  { w with stacks := Function.update w.stacks c (w.enabled :: w.stacks c), enabled := false }

/-- `clear_block_variable` (`overloaded_type.py:137-138`). -/
def detach (w : World V) (v : Nat) : World V := { w with ref := Function.update w.ref v none }

/-- `stop_annotating.__exit__` (`tape.py:122-130`).  `pop` from an empty list raises; it cannot happen here. -/
def exit (w : World V) (c : Nat) : World V :=
  let w := { w with
    enabled := (w.stacks c).headD w.enabled,
    stacks := Function.update w.stacks c (w.stacks c).tail }
  match w.mods c with
  | none => w
  | some vs => vs.foldl detach w

/-- `tape or Tape(**tape_kwargs)` (`tape.py:81`): a `Tape` has no `__len__` or `__bool__`, so it counts as true. -/
def chooseTape (w : World V) : Option Nat → World V × Nat
  | some t => (w, t)
  | none => ({ w with nextTape := w.nextTape + 1 }, w.nextTape)

/-- `set_working_tape.__init__` (`tape.py:75-82`); the previous tape is returned. -/
def install (w : World V) (t : Option Nat) : World V × Nat :=
  let (w', n) := w.chooseTape t
  ({ w' with tape := n }, w.tape)

/-- `block_variable` (`overloaded_type.py:127-130`): a new one is created if there is none. -/
def blockVar (w : World V) (v : Nat) : World V × Nat :=
  match w.ref v with
  | some b => (w, b)
  | none =>
    ({ w with
      ref := Function.update w.ref v (some w.next), owner := Function.update w.owner w.next v,
      ckpt := Function.update w.ckpt w.next none, next := w.next + 1 }, w.next)

/-- `add_dependency` (`block.py:43-57`) with `save_output(overwrite=False)` (`block_variable.py:52-55`,
`overloaded_type.py:273-277`): the value is copied if none is stored yet. -/
def addDep (w : World V) (v : Nat) : World V × Nat :=
  let (w, b) := w.blockVar v
  match w.ckpt b with
  | some _ => (w, b)
  | none => ({ w with ckpt := Function.update w.ckpt b (some (w.vals v)) }, b)

/-- The dependencies one after the other.  `block.py:43-57`. -/
def addDeps (w : World V) : List Nat → World V × List Nat
  | [] => (w, [])
  | v :: vs =>
    let (w, b) := w.addDep v
    let (w, bs) := w.addDeps vs
    (w, b :: bs)

/-- An operation that stores its result in the existing object `o`, as annotated methods such as `assign` do:
`block.add_output(o.create_block_variable())` (`block.py:68-78`, `overloaded_type.py:140-142`).  No checkpoint is
stored for an output (`block_variable.py:73-83`). -/
def operate (w : World V) (vs : List Nat) (o : Nat) (x : V) : World V :=
  if w.enabled then
    let (w, bs) := w.addDeps vs
    { w with
      vals := Function.update w.vals o x,
      ref := Function.update w.ref o (some w.next), owner := Function.update w.owner w.next o,
      ckpt := Function.update w.ckpt w.next none, next := w.next + 1,
      entries := Function.update w.entries w.tape (w.entries w.tape ++ [⟨bs, w.next⟩]) }
  else { w with vals := Function.update w.vals o x }

/-- `saved_output` (`block_variable.py:57-62`): the checkpoint, or the object itself with its present value. -/
def saved (w : World V) (b : Nat) : V := (w.ckpt b).getD (w.vals (w.owner b))

end World

variable {V : Type*}

/-- Run a program; the flag tells whether an exception left it.  `with` statements: `tape.py:75-91`, `109-130`; as
decorators, `ContextDecorator` runs the function in `with self` using the one object made at decoration time. -/
def run : Stmt V → World V → World V × Bool
  | .skip, w => (w, false)
  | .pause, w => ({ w with enabled := false }, false)
  | .cont, w => ({ w with enabled := true }, false)
  | .raise, w => (w, true)
  | .observe, w => ({ w with log := w.log ++ [(w.enabled, w.tape)] }, false)
  | .seq p q, w =>
    let (w, r) := run p w
    if r then (w, true) else run q w
  | .attempt p q, w =>
    let (w, r) := run p w
    if r then run q w else (w, false)
  | .stopping c p, w =>
    if w.refuses c then (w, true) else
    let (w, r) := run p (w.enter c)
    (w.exit c, r)
  | .withTape t p, w =>
    let (w, old) := w.install t
    let (w, r) := run p w
    ({ w with tape := old }, r)
  | .setTape t, w => ((w.install t).1, false)
  | .decorate d t, w =>
    let (w, old) := w.install t
    ({ w with old := Function.update w.old d old }, false)
  | .callDecorated d p, w =>
    let (w, r) := run p w
    ({ w with tape := w.old d }, r)
  | .op vs o x, w => (w.operate vs o x, false)
  | .assign v x, w => ({ w with vals := Function.update w.vals v x }, false)

end Ctx
end Pyadjoint
