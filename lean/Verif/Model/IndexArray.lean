import Verif.Model.ArrayIndex

/-!
# Indexing with index arrays and masks of several dimensions

Models `numpy_adjoint/array.py`: what `a[item]` reads and what `adj_output[item] = ...` writes if `item` contains index arrays of any shapes, masks
that cover several axes, integers, slices, `...` and `newaxis`.  The selection is NumPy's (`numpy/core/src/multiarray/mapping.c`, not in /repo):
index arrays are broadcast against each other, and every entry of the broadcast shape is a round in which each index array gives one position.
-/

namespace Pyadjoint

/-- One entry of an index tuple.  An index array is its shape and its entries.  Part of `item` (`numpy_adjoint/array.py:22, 45`). -/
inductive AEntry
  | int (k : Int)
  | slice (start stop step : Option Int)
  | array (shape : List Nat) (entry : List Nat → Int)
  | mask (shape : List Nat) (m : Ix shape → Bool)
  | ellipsis
  | newaxis

/-- The index expression for one axis: an integer or a slice, or an index array; an index array made from a mask also has the size the axis must have.
NumPy code, used through `numpy_adjoint/array.py:30, 52, 56`. -/
inductive AxisItem
  | basic (i : Item)
  | array (size : Option Nat) (shape : List Nat) (entry : List Nat → Int)

/-- A position as a list of numbers.  (Representation, not in the code.) -/
def Ix.toList : (ds : List Nat) → Ix ds → List Nat
  | [], _ => []
  | _ :: ds, p => p.1.val :: Ix.toList ds p.2

/-- The positions where a mask is true, in order (`nonzero`).  NumPy code, used through `numpy_adjoint/array.py:30, 52, 56`. -/
def trueAt (shape : List Nat) (m : Ix shape → Bool) : List (List Nat) := ((Ix.all shape).filter fun i => m i).map (Ix.toList shape)

/-- Number of axes an entry uses.  NumPy code, used through `numpy_adjoint/array.py:30, 52, 56`. -/
def AEntry.axes : AEntry → Nat
  | .int _ => 1
  | .slice _ _ _ => 1
  | .array _ _ => 1
  | .mask shape _ => shape.length
  | .ellipsis => 0
  | .newaxis => 0

/-- Whether an entry is `...`.  NumPy code, used through `numpy_adjoint/array.py:30, 52, 56`. -/
def AEntry.isDots : AEntry → Bool
  | .int _ => false
  | .slice _ _ _ => false
  | .array _ _ => false
  | .mask _ _ => false
  | .ellipsis => true
  | .newaxis => false

/-- The expressions an entry stands for, where `...` stands for `k` times `:`, and a mask for one index array per axis.
NumPy code, used through `numpy_adjoint/array.py:30, 52, 56`. -/
def AEntry.expand (k : Nat) : AEntry → List AxisItem
  | .int i => [.basic (.int i)]
  | .slice a b c => [.basic (.slice a b c)]
  | .array shape entry => [.array none shape entry]
  | .mask shape m => shape.zipIdx.map fun s =>
      .array (some s.1) [(trueAt shape m).length] fun t => (((trueAt shape m).getD (t.headD 0) []).getD s.2 0 : Nat)
  | .ellipsis => List.replicate k (.basic Item.full)
  | .newaxis => []

/-- One expression for every axis, as in `expandEntries`.  NumPy code, used through `numpy_adjoint/array.py:30, 52, 56`. -/
def expandAEntries (d : Nat) (es : List AEntry) : Except IndexErr (List AxisItem) :=
  let used := (es.map AEntry.axes).sum
  if 1 < es.countP AEntry.isDots ∨ d < used then .error .indexError else
  let its := es.flatMap (AEntry.expand (d - used))
  .ok (its ++ List.replicate (d - its.length) (.basic Item.full))

/-- The shape an entry contributes to the broadcasting.  NumPy code, used through `numpy_adjoint/array.py:30, 52, 56`. -/
def AEntry.shape? : AEntry → Option (List Nat)
  | .array shape _ => some shape
  | .mask shape m => some [(trueAt shape m).length]
  | .int _ => none
  | .slice _ _ _ => none
  | .ellipsis => none
  | .newaxis => none

/-- Broadcasting of two shapes, last axis first.  NumPy code, used through `numpy_adjoint/array.py:30, 52, 56`. -/
def broadcastRev : List Nat → List Nat → Except IndexErr (List Nat)
  | [], l => .ok l
  | a :: as, [] => .ok (a :: as)
  | a :: as, b :: bs => match broadcastRev as bs with
    | .error e => .error e
    | .ok r => if a = b then .ok (a :: r) else if a = 1 then .ok (b :: r) else if b = 1 then .ok (a :: r) else .error .indexError

/-- Broadcasting of all shapes, last axis first.  NumPy code, used through `numpy_adjoint/array.py:30, 52, 56`. -/
def broadcastAll (shapes : List (List Nat)) : Except IndexErr (List Nat) :=
  shapes.foldlM (fun r s => broadcastRev r s.reverse) []

/-- All multi-indices of a shape, last axis fastest.  NumPy's order of entries; used through `numpy_adjoint/array.py:30, 52, 56`. -/
def multiIndices : List Nat → List (List Nat)
  | [] => [[]]
  | n :: ds => (List.range n).flatMap fun i => (multiIndices ds).map fun r => i :: r

/-- The multi-index at which an index array of shape `shape` is read in round `b`: trailing axes are aligned, axes of length one are repeated.
NumPy code, used through `numpy_adjoint/array.py:30, 52, 56`. -/
def broadcastPick (shape b : List Nat) : List Nat :=
  (List.zipWith (fun d i => if d = 1 then 0 else i) shape.reverse b.reverse).reverse

/-- The expression for an axis in round `b`.  NumPy code, used through `numpy_adjoint/array.py:30, 52, 56`. -/
def AxisItem.atRound (b : List Nat) : AxisItem → Item
  | .basic i => i
  | .array _ shape entry => .int (entry (broadcastPick shape b))

/-- A mask must have the size of the axes it stands on.  NumPy code, used through `numpy_adjoint/array.py:30, 52, 56`. -/
def AxisItem.fits (n : Nat) : AxisItem → Bool
  | .basic _ => true
  | .array none _ _ => true
  | .array (some k) _ _ => k = n

/-- The positions that `a[item]` reads, or writes if it is assigned to, for an array of shape `ds`.  Simplified: the order is by rounds and then by axes.
NumPy puts the axes of the rounds where the first index array stands if all of them are adjacent; reading and assigning use the same order.
Used through `numpy_adjoint/array.py:30, 52, 56`. -/
def arrayPositions (ds : List Nat) (es : List AEntry) : Except IndexErr (List (Ix ds)) :=
  match expandAEntries ds.length es with
  | .error e => .error e
  | .ok its =>
    if (List.zipWith AxisItem.fits ds its).all id then
      match broadcastAll (es.filterMap AEntry.shape?) with
      | .error e => .error e
      | .ok r => collect ((multiIndices r.reverse).map fun b => productPositions ds (its.map (AxisItem.atRound b)))
    else .error .indexError

end Pyadjoint
