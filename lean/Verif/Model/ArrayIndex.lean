import Mathlib.Algebra.BigOperators.Group.Finset.Basic
import Mathlib.Data.Int.Order.Basic

/-!
# Indexing arrays

Models `numpy_adjoint/array.py`: `ndarray.__getitem__` and `NumpyArraySliceBlock`.  What NumPy does with an index is part of
the model: which positions it reads, and that assignment through an index writes them one after the other, so that the last
value stays where a position is repeated.  Arrays with several dimensions are functions on tuples of positions.
-/

namespace Pyadjoint

/-- Index expressions for one-dimensional arrays: an integer, a slice, a list of integers, a boolean mask.
What `item` may be in `numpy_adjoint/array.py:22, 45, 52, 56`. -/
inductive Item
  | int (k : Int)
  | slice (start stop step : Option Int)
  | list (l : List Int)
  | mask (m : List Bool)

/-- `IndexError`, and the `ValueError` of a slice with step zero.  Raised by NumPy at `numpy_adjoint/array.py:30`. -/
inductive IndexErr | indexError | valueError
  deriving DecidableEq

/-- Clipping of a bound of a slice: negative bounds count from the end (CPython, `PySlice_AdjustIndices`).
CPython code, used through `numpy_adjoint/array.py:30, 52, 56`. -/
def clipBound (n lower upper : Int) : Option Int → Int → Int
  | none, dflt => dflt
  | some i, _ => if i < 0 then max (i + n) lower else min i upper

/-- First position, and number of positions, of a slice with nonzero step (`slice.indices`).
CPython code, used through `numpy_adjoint/array.py:30, 52, 56`. -/
def sliceRange (n : Nat) (start stop : Option Int) (step : Int) : Int × Nat :=
  if 0 < step then
    let a := clipBound n 0 n start 0
    let b := clipBound n 0 n stop n
    (a, if a < b then ((b - a - 1) / step + 1).toNat else 0)
  else
    let a := clipBound n (-1) (n - 1) start (n - 1)
    let b := clipBound n (-1) (n - 1) stop (-1)
    (a, if b < a then ((a - b - 1) / (-step) + 1).toNat else 0)

/-- The position of an integer index, counted from the end if negative.  NumPy code, used through `numpy_adjoint/array.py:30, 52, 56`. -/
def intPosition (n : Nat) (k : Int) : Option (Fin n) :=
  let k := if k < 0 then k + n else k
  if h : 0 ≤ k ∧ k < n then some ⟨k.toNat, by omega⟩ else none

/-- The positions an index expression reads, in order.  NumPy code, used through `numpy_adjoint/array.py:30, 52, 56`. -/
def Item.positions (n : Nat) : Item → Except IndexErr (List (Fin n))
  | .int k => match intPosition n k with
    | none => .error .indexError
    | some p => .ok [p]
  | .slice start stop step =>
    let step := step.getD 1
    if step = 0 then .error .valueError else
    let r := sliceRange n start stop step
    .ok ((List.range r.2).filterMap fun (k : Nat) => intPosition n (r.1 + k * step))
  | .list l => match l.mapM (intPosition n) with
    | none => .error .indexError
    | some ps => .ok ps
  | .mask m => if m.length ≠ n then .error .indexError else
    .ok ((List.finRange n).filter fun i => m[(i : Nat)]?.getD false)

variable {E : Type*}

/-- Reading through an index: `__getitem__` (`numpy_adjoint/array.py:22-35`) and `recompute_component` (`numpy_adjoint/array.py:55-56`). -/
def readAt {ι : Type*} (a : ι → E) (ps : List ι) : List E := ps.map a

/-- `adj_output[self.item] = adj_inputs[0]` on an array (`numpy_adjoint/array.py:52`). -/
def assignAt {ι : Type*} [DecidableEq ι] (z : ι → E) (ps : List ι) (vs : List E) : ι → E :=
  (ps.zip vs).foldl (fun z p => Function.update z p.1 p.2) z

/-- `NumpyArraySliceBlock.evaluate_adj_component` (`numpy_adjoint/array.py:50-53`). -/
def sliceAdj [Zero E] {ι : Type*} [DecidableEq ι] (ps : List ι) (adj : List E) : ι → E :=
  assignAt (fun _ => 0) ps adj

/-! ## Several dimensions -/

/-- Positions in an array of shape `ds`.  For `inputs[0].shape` (`numpy_adjoint/array.py:51`). -/
def Ix : List Nat → Type
  | [] => Unit
  | n :: ds => Fin n × Ix ds

/-- Decidable equality of positions.  (Not in the code.) -/
instance Ix.decEq : (ds : List Nat) → DecidableEq (Ix ds)
  | [] => inferInstanceAs (DecidableEq Unit)
  | _ :: ds => @instDecidableEqProd _ _ inferInstance (Ix.decEq ds)

/-- All positions, last index fastest.  NumPy's order of entries; `numpy_adjoint/array.py:51`. -/
def Ix.all : (ds : List Nat) → List (Ix ds)
  | [] => [()]
  | n :: ds => (List.finRange n).flatMap fun i => (Ix.all ds).map fun r => (i, r)

/-- One entry of an index tuple: an index expression for the next axis, `...`, or `numpy.newaxis`.
Part of `item` (`numpy_adjoint/array.py:22, 45`). -/
inductive Entry
  | item (i : Item)
  | ellipsis
  | newaxis

/-- What may stand in the brackets: a tuple of entries, or a boolean array of the shape of the array itself.
`item` in `numpy_adjoint/array.py:22, 45`. -/
inductive NdIndex (ds : List Nat)
  | tuple (es : List Entry)
  | mask (m : Ix ds → Bool)

/-- Number of axes an entry uses.  NumPy code, used through `numpy_adjoint/array.py:30, 52, 56`. -/
def Entry.axes : Entry → Nat
  | .item _ => 1
  | .ellipsis => 0
  | .newaxis => 0

/-- `:`.  Part of `item` (`numpy_adjoint/array.py:22, 45`). -/
def Item.full : Item := .slice none none none

/-- Whether an entry is `...`.  NumPy code, used through `numpy_adjoint/array.py:30, 52, 56`. -/
def Entry.isDots : Entry → Bool
  | .item _ => false
  | .ellipsis => true
  | .newaxis => false

/-- The index expressions an entry stands for, where `...` stands for `k` times `:`.
NumPy code, used through `numpy_adjoint/array.py:30, 52, 56`. -/
def Entry.expand (k : Nat) : Entry → List Item
  | .item i => [i]
  | .ellipsis => List.replicate k Item.full
  | .newaxis => []

/-- One index expression for every axis: `...` stands for as many `:` as are missing, `newaxis` uses no axis, and missing
trailing entries are `:`.  More than one `...` and too many entries are errors (NumPy's `prepare_index`).
Used through `numpy_adjoint/array.py:30, 52, 56`. -/
def expandEntries (d : Nat) (es : List Entry) : Except IndexErr (List Item) :=
  let used := (es.map Entry.axes).sum
  if 1 < es.countP Entry.isDots ∨ d < used then .error .indexError else
  let its := es.flatMap (Entry.expand (d - used))
  .ok (its ++ List.replicate (d - its.length) Item.full)

/-- Index lists; a mask is the list of the positions where it is true (NumPy's `nonzero`).  Negative positions are resolved
when the list is used.  Used through `numpy_adjoint/array.py:30, 52, 56`. -/
def Item.advanced (n : Nat) : Item → Except IndexErr (Option (List Int))
  | .list l => .ok (some l)
  | .mask m => if m.length ≠ n then .error .indexError else
    .ok (some (((List.finRange n).filter fun i => m[(i : Nat)]?.getD false).map fun i => ((i : Nat) : Int)))
  | .int _ => .ok none
  | .slice _ _ _ => .ok none

/-- The index lists of all axes.  NumPy code, used through `numpy_adjoint/array.py:30, 52, 56`. -/
def advancedAll : List Nat → List Item → Except IndexErr (List (Option (List Int)))
  | n :: ds, i :: is => match i.advanced n, advancedAll ds is with
    | .ok a, .ok as => .ok (a :: as)
    | .error e, _ => .error e
    | .ok _, .error e => .error e
  | _, _ => .ok []

/-- Common length of the index lists; lists of length one are repeated (broadcasting).  Without index lists there is one
round.  NumPy code, used through `numpy_adjoint/array.py:30, 52, 56`. -/
def rounds (as : List (Option (List Int))) : Except IndexErr Nat :=
  let ls := as.filterMap fun a => a.map List.length
  match ls.filter (· ≠ 1) with
  | [] => .ok 1
  | k :: ks => if ks.all (· = k) then .ok k else .error .indexError

/-- The entry of an index list in round `t`.  NumPy code, used through `numpy_adjoint/array.py:30, 52, 56`. -/
def pick (t : Nat) (l : List Int) : Option Int := if l.length = 1 then l[0]? else l[t]?

/-- The index expression in round `t`: lists are read at `t`.  NumPy code, used through `numpy_adjoint/array.py:30, 52, 56`. -/
def Item.atRound (t : Nat) (i : Item) : Option (List Int) → Item
  | none => i
  | some l => match pick t l with
    | some k => .int k
    | none => .list []

/-- Positions for one index expression per axis, none of them a list: all combinations, last axis fastest.
NumPy code, used through `numpy_adjoint/array.py:30, 52, 56`. -/
def productPositions : (ds : List Nat) → List Item → Except IndexErr (List (Ix ds))
  | [], [] => .ok [()]
  | n :: ds, i :: is => match i.positions n, productPositions ds is with
    | .ok ps, .ok rs => .ok (ps.flatMap fun p => rs.map fun r => (p, r))
    | .error e, _ => .error e
    | .ok _, .error e => .error e
  | [], _ :: _ => .error .indexError
  | _ :: _, [] => .error .indexError

/-- Concatenation of the positions of all rounds.  NumPy code, used through `numpy_adjoint/array.py:30, 52, 56`. -/
def collect {α : Type*} : List (Except IndexErr (List α)) → Except IndexErr (List α)
  | [] => .ok []
  | .error e :: _ => .error e
  | .ok ps :: l => match collect l with
    | .error e => .error e
    | .ok qs => .ok (ps ++ qs)

/-- The positions that `a[item]` reads for an array of shape `ds`.  Simplified: the order is by rounds and then by axes.  NumPy
puts the axis of the index lists where the first list stands if all lists are adjacent; the order only matters in that
reading and assigning use the same.  Used through `numpy_adjoint/array.py:30, 52, 56`. -/
def NdIndex.positions (ds : List Nat) : NdIndex ds → Except IndexErr (List (Ix ds))
  | .mask m => .ok ((Ix.all ds).filter fun i => m i)
  | .tuple es => match expandEntries ds.length es with
    | .error e => .error e
    | .ok is => match advancedAll ds is with
      | .error e => .error e
      | .ok as => match rounds as with
        | .error e => .error e
        | .ok k => collect ((List.range k).map fun t =>
            productPositions ds (List.zipWith (fun i a => i.atRound t a) is as))

end Pyadjoint
