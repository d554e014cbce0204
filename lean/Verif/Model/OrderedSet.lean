import Mathlib.Data.List.Nodup

/-!
# `OrderedSet` (`pyadjoint/ordered_set.py`)

The underlying `dict` is the list of its keys in iteration order: assigning to an existing key keeps
its place, assigning to a new key appends it, deleting removes it (language guarantee since Python 3.7).
-/

namespace Pyadjoint

variable {α : Type*} [DecidableEq α]

/-- The keys of `_elements` (`ordered_set.py:14`). -/
structure OSet (α : Type*) where
  elems : List α

namespace OSet

/-- `self._elements[obj] = None` (`ordered_set.py:17,33-36`). -/
def add (s : OSet α) (x : α) : OSet α := if x ∈ s.elems then s else ⟨s.elems ++ [x]⟩

/-- `OrderedSet.__init__` (`ordered_set.py:5-17`). -/
def ofIterable (l : List α) : OSet α := l.foldl add ⟨[]⟩

/-- `__contains__` (`ordered_set.py:19-20`). -/
def contains (s : OSet α) (x : α) : Bool := x ∈ s.elems

/-- `remove` (`ordered_set.py:38-44`); `none` is the `KeyError`. -/
def remove (s : OSet α) (x : α) : Option (OSet α) :=
  if s.contains x then some ⟨s.elems.erase x⟩ else none

/-- `discard` (`ordered_set.py:46-52`). -/
def discard (s : OSet α) (x : α) : OSet α :=
  if s.contains x then (s.remove x).getD s else s

/-- `union` (`ordered_set.py:57-66`). -/
def union (s : OSet α) (others : List (List α)) : OSet α :=
  others.foldl (fun ret other => other.foldl add ret) s

/-- `difference` (`ordered_set.py:74-85`). -/
def difference (s : OSet α) (others : List (List α)) : OSet α :=
  others.foldl (fun ret other => other.foldl discard ret) s

/-- `intersection` (`ordered_set.py:93-107`). -/
def intersection (s : OSet α) (others : List (List α)) : OSet α :=
  s.elems.foldl (fun ret x => if others.all (fun o => x ∈ o) then ret.add x else ret) ⟨[]⟩

/-- `symmetric_difference` (`ordered_set.py:115-130`). -/
def symmetricDifference (s : OSet α) (other : List α) : OSet α :=
  let ret := s.elems.foldl (fun ret x => if x ∈ other then ret else ret.add x) ⟨[]⟩
  other.foldl (fun ret x => if s.contains x then ret else ret.add x) ret

end OSet

/-- A mutating operation on an ordered set.  Methods of `ordered_set.py`. -/
inductive SetOp (α : Type*)
  | add (x : α)
  | discard (x : α)

/-- Perform it (`ordered_set.py:33-52`). -/
def SetOp.apply (s : OSet α) : SetOp α → OSet α
  | .add x => s.add x
  | .discard x => s.discard x

end Pyadjoint
