import Mathlib.Logic.Function.Basic
import Mathlib.Data.Nat.Digits.Defs

/-!
# PETSc options

Models `flatten_parameters` and `OptionsManager` of `pyadjoint/optimization/tao_solver.py:130-324`.  Keys are strings (as lists of characters); other
keys, which the code turns into strings or raises on, are not modelled.
-/

namespace Pyadjoint
namespace Opts

/-- Keys.  `tao_solver.py:133-199`. -/
abbrev Key := List Char

mutual
/-- A value of a parameter dictionary: a nested dictionary or anything else.  `tao_solver.py:162-176`. -/
inductive PVal (α : Type) where
  | leaf (a : α)
  | dict (d : PDict α)
/-- A Python dictionary with its items in order.  `tao_solver.py:133-199`. -/
inductive PDict (α : Type) where
  | nil
  | cons (k : Key) (v : PVal α) (d : PDict α)
end

variable {α : Type}

mutual
/-- `flatten` (`tao_solver.py:162-176`) of a value: non-dictionaries have no `items` and are returned, and so are empty
dictionaries.  The prefixes are innermost first. -/
def flattenVal : PVal α → List Key → List (List Key × PVal α)
  | .leaf a, ps => [(ps, .leaf a)]
  | .dict .nil, ps => [(ps, .dict .nil)]
  | .dict (.cons k v d), ps => flattenVal v (k :: ps) ++ flattenDict d ps
/-- The loop of lines 167-170.  `tao_solver.py:167-170`. -/
def flattenDict : PDict α → List Key → List (List Key × PVal α)
  | .nil, _ => []
  | .cons k v d, ps => flattenVal v (k :: ps) ++ flattenDict d ps
end

/-- One intermediate key of `munge` (`tao_solver.py:183-186`). -/
def addSep (sep key : Key) : Key := if key ≠ [] ∧ ¬ sep.isSuffixOf key then key ++ sep else key

/-- `"".join(map(str, munge(keys)))` (`tao_solver.py:178-188,191`). -/
def munge (sep : Key) : List Key → Key
  | [] => []
  | key :: keys => (keys.reverse.map (addSep sep)).flatten ++ key

/-- `new[option] = value` on a dictionary.  Python's dictionary assignment at `tao_solver.py:195`. -/
def assign {β : Type} : List (Key × β) → Key → β → List (Key × β)
  | [], k, v => [(k, v)]
  | (k', v') :: l, k, v => if k' = k then (k, v) :: l else (k', v') :: assign l k v

/-- `flatten_parameters` (`tao_solver.py:133-196`). -/
def flattenParameters (sep : Key) (d : PDict α) : List (Key × PVal α) :=
  (flattenDict d []).foldl (fun new p => assign new (munge sep p.1) p.2) []

/-- `d[key]`.  Python's dictionary access.  Used for `tao_solver.py:298-325`. -/
def lookup {β : Type} (l : List (Key × β)) (k : Key) : Option β := (l.find? fun p => p.1 = k).map (·.2)

/-- The global options database.  `PETSc.Options()`, used in `tao_solver.py:252-325`. -/
abbrev DB (β : Type) := Key → Option β

/-- `"%d"`.  Used in `tao_solver.py:263`. -/
def decimal (n : Nat) : Key := if n = 0 then ['0'] else (Nat.digits 10 n).reverse.map Nat.digitChar

/-- The prefix of line 263.  `tao_solver.py:263`. -/
def autoPrefix (n : Nat) : Key := "pyadjoint_".toList ++ decimal n ++ ['_']

/-- An `OptionsManager`.  `toDelete` is a set.  `tao_solver.py:252-282`. -/
structure Manager (β : Type) where
  optPrefix : Key
  params : List (Key × β)
  toDelete : List Key
  setFromOptions : Bool := false

variable {β : Type}

/-- `OptionsManager.__init__` (`tao_solver.py:252-265,282`) without prefix; `params` are flat, `n` comes from the counter. -/
def initAuto (n : Nat) (params : List (Key × β)) : Manager β :=
  { optPrefix := autoPrefix n, params := params, toDelete := params.map (·.1) }

/-- The trailing underscore (`tao_solver.py:267-268`). -/
def fixPrefix (p : Key) : Key := if p ≠ [] ∧ ¬ ['_'].isSuffixOf p then p ++ ['_'] else p

/-- `OptionsManager.__init__` with a prefix (`tao_solver.py:266-282`).  `db` lists the database (`getAll`), `cmd` the keys of the command line. -/
def initPrefix (cmd : List Key) (db : List (Key × β)) (pre : Key) (params : List (Key × β)) : Manager β :=
  let pre := fixPrefix pre
  let kept := params.filter fun p => ¬ (pre ++ p.1) ∈ cmd
  { optPrefix := pre
    params := (db.filter fun p => pre.isPrefixOf p.1).foldl (fun l p => assign l (p.1.drop pre.length) p.2) kept
    toDelete := kept.map (·.1) }

/-- `set_default_parameter` (`tao_solver.py:284-296`). -/
def Manager.setDefault (m : Manager β) (db : DB β) (key : Key) (val : β) : Manager β :=
  if db (m.optPrefix ++ key) = none ∧ lookup m.params key = none then
    { m with params := assign m.params key val, toDelete := key :: m.toDelete }
  else m

/-- The insertion loop (`tao_solver.py:319-320`). -/
def insertAll (pre : Key) (l : List (Key × β)) (db : DB β) : DB β :=
  l.foldl (fun db p => Function.update db (pre ++ p.1) (some p.2)) db

/-- The deletion loop (`tao_solver.py:323-324`); PETSc ignores names it does not know. -/
def deleteAll (pre : Key) (l : List Key) (db : DB β) : DB β :=
  l.foldl (fun db k => Function.update db (pre ++ k) none) db

/-- `with self.inserted_options(): body` (`tao_solver.py:314-324`).  `body` returns whether it completed; the `finally` runs in any case. -/
def Manager.inserted (m : Manager β) (body : DB β → Bool × DB β) (db : DB β) : Bool × DB β :=
  let (ok, db) := body (insertAll m.optPrefix m.params db)
  (ok, deleteAll m.optPrefix m.toDelete db)

/-- `set_from_options` (`tao_solver.py:298-312`).  `obj` is `petsc_obj.setFromOptions()`, whether it completed and what it did to the database.  Returns
whether the call completed, whether `setFromOptions` was called, the manager and the database. -/
def Manager.setFrom (m : Manager β) (obj : DB β → Bool × DB β) (db : DB β) : Bool × Bool × Manager β × DB β :=
  if m.setFromOptions then (true, false, m, db) else
    let (ok, db) := m.inserted obj db
    (ok, true, { m with setFromOptions := ok }, db)

/-- A sequence of `set_from_options` calls with different objects; returns for each whether `setFromOptions` was called and completed.
(The user's program, not in the code: calls of `tao_solver.py:298-312`.) -/
def setFromMany (m : Manager β) (db : DB β) : List (DB β → Bool × DB β) → List (Bool × Bool)
  | [] => []
  | obj :: l => ((m.setFrom obj db).2.1, (m.setFrom obj db).1) :: setFromMany (m.setFrom obj db).2.2.1 (m.setFrom obj db).2.2.2 l

end Opts
end Pyadjoint
