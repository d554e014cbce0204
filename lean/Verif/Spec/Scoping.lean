import Verif.Model.Contexts

/-!
# Specification of scoping

What the context managers are documented to do, with the enclosing contexts as an argument instead of stacks
and saved values in objects: annotation is off inside `stop_annotating` and is as before outside; the working tape
is the given one inside `set_working_tape` and the previous one outside.
-/

namespace Pyadjoint
namespace Ctx

variable {V : Type*}

/-- The annotation flag, the working tape, the number of tapes, and what the program saw. -/
structure Env where
  flag : Bool
  tape : Nat
  tapes : Nat
  log : List (Bool × Nat)

/-- The tape given, or a new one. -/
def Env.choose (e : Env) : Option Nat → Env × Nat
  | some t => (e, t)
  | none => ({ e with tapes := e.tapes + 1 }, e.tapes)

/-- The argument `modifies` names at least one variable. -/
def namesSome : Option (List Nat) → Bool
  | some (_ :: _) => true
  | _ => false

/-- Dynamic scoping.  `active c` tells how many contexts of the object `c` enclose the statement; `mods` is the argument
`modifies` of each object; `args d` is the argument of the decorator of `d`. -/
def denote (mods : Nat → Option (List Nat)) (args : Nat → Option Nat) : Stmt V → (Nat → Nat) → Env → Env × Bool
  | .skip, _, e => (e, false)
  | .pause, _, e => ({ e with flag := false }, false)
  | .cont, _, e => ({ e with flag := true }, false)
  | .raise, _, e => (e, true)
  | .observe, _, e => ({ e with log := e.log ++ [(e.flag, e.tape)] }, false)
  | .seq p q, a, e =>
    let (e, r) := denote mods args p a e
    if r then (e, true) else denote mods args q a e
  | .attempt p q, a, e =>
    let (e, r) := denote mods args p a e
    if r then denote mods args q a e else (e, false)
  | .stopping c p, a, e =>
    if namesSome (mods c) && decide (0 < a c) then (e, true) else
    let (e', r) := denote mods args p (fun c' => if c' = c then a c + 1 else a c') { e with flag := false }
    ({ e' with flag := e.flag }, r)
  | .withTape t p, a, e =>
    let (e', n) := e.choose t
    let (e'', r) := denote mods args p a { e' with tape := n }
    ({ e'' with tape := e.tape }, r)
  | .setTape t, _, e =>
    let (e', n) := e.choose t
    ({ e' with tape := n }, false)
  | .decorate _ _, _, e => (e, false)
  | .callDecorated d p, a, e =>
    let (e', n) := e.choose (args d)
    let (e'', r) := denote mods args p a { e' with tape := n }
    ({ e'' with tape := e.tape }, r)
  | .op _ _ _, _, e => (e, false)
  | .assign _ _, _, e => (e, false)

/-- The program does not use `set_working_tape` as a decorator. -/
def Undecorated : Stmt V → Prop
  | .seq p q => Undecorated p ∧ Undecorated q
  | .attempt p q => Undecorated p ∧ Undecorated q
  | .stopping _ p => Undecorated p
  | .withTape _ p => Undecorated p
  | .decorate _ _ => False
  | .callDecorated _ _ => False
  | _ => True

end Ctx
end Pyadjoint
