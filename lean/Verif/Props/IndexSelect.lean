import Verif.Props.ArrayIndex
import Mathlib.Data.List.Forall2

/-!
# Which positions an index expression selects (C35)

Python's rules for integers, slices, index lists and masks, stated without clipping of bounds.
-/

namespace Pyadjoint

/-- A bound or index of an axis of length `n`, counted from the end if negative. -/
def fromEnd (n : Nat) (k : Int) : Int := if k < 0 then k + n else k

/-- **Integers.** `a[k]` reads position `k`, or `k + n` if `k` is negative, and raises `IndexError` if there is no such position. -/
theorem int_selects (n : Nat) (k : Int) :
    (∀ p : Fin n, (Item.int k).positions n = .ok [p] ↔ (p : Int) = fromEnd n k) ∧
    ((Item.int k).positions n = .error .indexError ↔ ¬ (-(n : Int) ≤ k ∧ k < n)) := by
  have key : ∀ p : Fin n, intPosition n k = some p ↔ (p : Int) = fromEnd n k := by
    intro p
    have e : intPosition n k = if h : 0 ≤ fromEnd n k ∧ fromEnd n k < n then some ⟨(fromEnd n k).toNat, by omega⟩ else none := rfl
    rw [e]
    by_cases h : 0 ≤ fromEnd n k ∧ fromEnd n k < n
    · rw [dif_pos h, Option.some.injEq, Fin.ext_iff]
      simp only
      omega
    · rw [dif_neg h]
      have := p.isLt
      constructor
      · intro h'; cases h'
      · intro h'; omega
  constructor
  · intro p
    rw [← key p]
    simp only [Item.positions]
    cases h : intPosition n k with
    | none => simp
    | some q => simp
  · simp only [Item.positions]
    cases h : intPosition n k with
    | none =>
      simp only [true_iff]
      rintro ⟨h1, h2⟩
      have hr : 0 ≤ fromEnd n k ∧ fromEnd n k < n := by
        unfold fromEnd
        split <;> omega
      have := (key ⟨(fromEnd n k).toNat, by omega⟩).2 (by simp only; omega)
      rw [h] at this
      cases this
    | some p =>
      have := (key p).1 h
      have hp := p.isLt
      unfold fromEnd at this
      refine ⟨fun h => (by cases h), fun hc => absurd ?_ hc⟩
      split at this <;> omega

/-- **Masks.** `a[m]` reads exactly the positions where the mask is true, in order; the mask must have the length of the array. -/
theorem mask_selects (n : Nat) (m : List Bool) :
    ((Item.mask m).positions n = .error .indexError ↔ m.length ≠ n) ∧
    ∀ ps, (Item.mask m).positions n = .ok ps → ps.Pairwise (· < ·) ∧ ∀ i : Fin n, i ∈ ps ↔ m[(i : Nat)]? = some true := by
  simp only [Item.positions]
  constructor
  · by_cases h : m.length ≠ n
    · rw [if_pos h]; simp [h]
    · rw [if_neg h]; simp [h]
  · intro ps hps
    split at hps
    · cases hps
    · rename_i h
      cases hps
      refine ⟨(List.pairwise_lt_finRange n).filter _, fun i => ?_⟩
      rw [List.mem_filter]
      simp only [List.mem_finRange, true_and]
      cases m[(i : Nat)]? with
      | none => simp
      | some b => simp

/-- **Index lists.** `a[l]` reads one position for each index, in order, and raises `IndexError` if one is out of range. -/
theorem list_selects (n : Nat) (l : List Int) :
    ((Item.list l).positions n = .error .indexError ↔ ∃ k ∈ l, ¬ (-(n : Int) ≤ k ∧ k < n)) ∧
    ∀ ps : List (Fin n), (Item.list l).positions n = .ok ps ↔ List.Forall₂ (fun (k : Int) (p : Fin n) => (p : Int) = fromEnd n k) l ps := by
  have one : ∀ k (p : Fin n), intPosition n k = some p ↔ (p : Int) = fromEnd n k := by
    intro k p
    rw [← (int_selects n k).1 p]
    simp only [Item.positions]
    cases intPosition n k <;> simp
  have bad : ∀ k, intPosition n k = none ↔ ¬ (-(n : Int) ≤ k ∧ k < n) := by
    intro k
    rw [← (int_selects n k).2]
    simp only [Item.positions]
    cases intPosition n k <;> simp
  have hnone : l.mapM (intPosition n) = none ↔ ∃ k ∈ l, intPosition n k = none := by
    induction l with
    | nil => simp
    | cons k l ih =>
      rw [List.mapM_cons]
      cases h : intPosition n k with
      | none => simp [h]
      | some p =>
        cases h' : l.mapM (intPosition n) with
        | none => simp only [h', true_iff] at ih; simpa [h] using ih
        | some ps => rw [h'] at ih; simpa [h] using ih
  have hsome : ∀ ps, l.mapM (intPosition n) = some ps ↔ List.Forall₂ (fun (k : Int) (p : Fin n) => (p : Int) = fromEnd n k) l ps := by
    clear hnone
    induction l with
    | nil => intro ps; cases ps <;> simp
    | cons k l ih =>
      intro ps
      rw [List.mapM_cons]
      cases ps with
      | nil =>
        cases intPosition n k with
        | none => simp
        | some p => cases l.mapM (intPosition n) <;> simp
      | cons q qs =>
        rw [List.forall₂_cons, ← ih qs, ← one k q]
        cases intPosition n k with
        | none => simp
        | some p => cases l.mapM (intPosition n) <;> simp
  constructor
  · simp only [← bad]
    rw [← hnone]
    simp only [Item.positions]
    cases l.mapM (intPosition n) <;> simp
  · intro ps
    rw [← hsome ps]
    simp only [Item.positions]
    cases l.mapM (intPosition n) <;> simp

theorem mem_slice (n : Nat) (start stop step : Option Int) (hs : step.getD 1 ≠ 0) (ps : List (Fin n))
    (hps : (Item.slice start stop step).positions n = .ok ps) (i : Fin n) :
    i ∈ ps ↔ ∃ k : Nat, k < (sliceRange n start stop (step.getD 1)).2 ∧
      (sliceRange n start stop (step.getD 1)).1 + k * step.getD 1 = i := by
  simp only [Item.positions] at hps
  rw [if_neg hs] at hps
  cases hps
  rw [List.mem_filterMap]
  constructor
  · rintro ⟨k, hk, h⟩
    have hk' := List.mem_range.1 hk
    exact ⟨k, hk', (intPosition_val h (slice_in_range n start stop _ hs k hk').1).symm⟩
  · rintro ⟨k, hk, h⟩
    refine ⟨k, List.mem_range.2 hk, ?_⟩
    have := (int_selects n ((sliceRange n start stop (step.getD 1)).1 + k * step.getD 1)).1 i
    rw [h] at this ⊢
    have h2 := this.2 (by unfold fromEnd; split <;> omega)
    simp only [Item.positions] at h2
    cases h3 : intPosition n (i : Int) with
    | none => rw [h3] at h2; cases h2
    | some p => rw [h3] at h2; simp at h2; rw [h2]

theorem slice_ordered (n : Nat) (start stop step : Option Int) (hs : step.getD 1 ≠ 0) (ps : List (Fin n))
    (hps : (Item.slice start stop step).positions n = .ok ps) :
    (0 < step.getD 1 → ps.Pairwise (· < ·)) ∧ (step.getD 1 < 0 → ps.Pairwise (· > ·)) := by
  simp only [Item.positions] at hps
  rw [if_neg hs] at hps
  cases hps
  have key : ∀ (R : Fin n → Fin n → Prop), (∀ (k j : Nat) (p q : Fin n), k < j → j < (sliceRange n start stop (step.getD 1)).2 →
      (p : Int) = (sliceRange n start stop (step.getD 1)).1 + k * step.getD 1 →
      (q : Int) = (sliceRange n start stop (step.getD 1)).1 + j * step.getD 1 → R p q) →
      ((List.range (sliceRange n start stop (step.getD 1)).2).filterMap fun (k : Nat) =>
        intPosition n ((sliceRange n start stop (step.getD 1)).1 + k * step.getD 1)).Pairwise R := by
    intro R hR
    rw [List.pairwise_filterMap]
    have hlt : (List.range (sliceRange n start stop (step.getD 1)).2).Pairwise (fun a b => a < b ∧ b < (sliceRange n start stop (step.getD 1)).2) := by
      rw [List.pairwise_iff_getElem]
      intro a b ha hb hab
      simp only [List.getElem_range]
      exact ⟨hab, by simpa using hb⟩
    refine hlt.imp ?_
    rintro k j ⟨hkj, hj⟩ p hp q hq
    exact hR k j p q hkj hj (intPosition_val hp (slice_in_range n start stop _ hs k (by omega)).1)
      (intPosition_val hq (slice_in_range n start stop _ hs j hj).1)
  generalize step.getD 1 = st at *
  constructor
  · intro hpos
    refine key _ fun k j p q hkj _ hp hq => ?_
    have : (k : Int) * st < j * st := Int.mul_lt_mul_of_pos_right (by omega) hpos
    exact Fin.lt_def.2 (by omega)
  · intro hneg
    refine key _ fun k j p q hkj _ hp hq => ?_
    have : (j : Int) * st < k * st := Int.mul_lt_mul_of_neg_right (by omega) hneg
    exact Fin.lt_def.2 (by omega)

/-- **Slices, positive step.** `a[s:t:d]` reads, in increasing order, exactly the positions `i` with `s ≤ i < t` that are a multiple of `d`
away from the first; negative bounds count from the end. -/
theorem slice_selects (n : Nat) (start stop step : Option Int) (hs : 0 < step.getD 1) (ps : List (Fin n))
    (hps : (Item.slice start stop step).positions n = .ok ps) :
    ps.Pairwise (· < ·) ∧ ∀ i : Fin n, i ∈ ps ↔
      (start.map (fromEnd n)).getD 0 ≤ i ∧ i < (stop.map (fromEnd n)).getD n ∧
      step.getD 1 ∣ (i : Int) - max ((start.map (fromEnd n)).getD 0) 0 := by
  refine ⟨(slice_ordered n start stop step (by omega) ps hps).1 hs, fun i => ?_⟩
  rw [mem_slice n start stop step (by omega) ps hps i]
  have hi := i.isLt
  generalize hd : step.getD 1 = d at *
  have ha : ∀ j : Int, j = i → (clipBound n 0 n start 0 ≤ j ↔ (start.map (fromEnd n)).getD 0 ≤ j) ∧
      (clipBound n 0 n start 0 ≤ j → clipBound n 0 n start 0 = max ((start.map (fromEnd n)).getD 0) 0) := by
    intro j hj
    cases start with
    | none => simp [clipBound]
    | some s =>
      simp only [clipBound, Option.map_some, Option.getD_some, fromEnd]
      split <;> constructor <;> omega
  have hb : (i : Int) < clipBound n 0 n stop n ↔ (i : Int) < (stop.map (fromEnd n)).getD n := by
    cases stop with
    | none => simp [clipBound]
    | some s =>
      simp only [clipBound, Option.map_some, Option.getD_some, fromEnd]
      split <;> omega
  obtain ⟨ha1, ha2⟩ := ha i rfl
  rw [← ha1, ← hb]
  have e : ∀ k : Nat, k < (sliceRange n start stop d).2 ↔ clipBound n 0 n start 0 + k * d < clipBound n 0 n stop n := by
    intro k
    unfold sliceRange
    rw [if_pos hs]
    simp only
    have hkd : 0 ≤ (k : Int) * d := Int.mul_nonneg (by omega) (by omega)
    split
    · rename_i hab
      have := Int.ediv_nonneg (a := clipBound n 0 n stop n - clipBound n 0 n start 0 - 1) (b := d) (by omega) (by omega)
      have h1 := Int.le_ediv_iff_mul_le (a := (k : Int)) (b := clipBound n 0 n stop n - clipBound n 0 n start 0 - 1) hs
      omega
    · omega
  have e1 : (sliceRange n start stop d).1 = clipBound n 0 n start 0 := by unfold sliceRange; rw [if_pos hs]
  simp only [e, e1]
  constructor
  · rintro ⟨k, hk, h⟩
    have hkd : 0 ≤ (k : Int) * d := Int.mul_nonneg (by omega) (by omega)
    have hle : clipBound n 0 n start 0 ≤ i := by omega
    refine ⟨hle, by omega, ?_⟩
    rw [← ha2 hle]
    exact ⟨k, by rw [Int.mul_comm]; omega⟩
  · rintro ⟨h1, h2, c, h3⟩
    rw [← ha2 h1] at h3
    have hc : 0 ≤ c := by
      by_contra hc
      have : d * c < 0 := Int.mul_neg_of_pos_of_neg hs (by omega)
      omega
    refine ⟨c.toNat, ?_⟩
    have : ((c.toNat : Nat) : Int) = c := by omega
    rw [this, Int.mul_comm c d]
    omega

/-- **Slices, negative step.** `a[s:t:-d]` reads, in decreasing order, exactly the positions `i` with `t < i ≤ s` that are a multiple of `d` away
from the first; negative bounds count from the end, and without bounds the whole array is read. -/
theorem slice_selects_backwards (n : Nat) (start stop step : Option Int) (hs : step.getD 1 < 0) (ps : List (Fin n))
    (hps : (Item.slice start stop step).positions n = .ok ps) :
    ps.Pairwise (· > ·) ∧ ∀ i : Fin n, i ∈ ps ↔
      i ≤ (start.map (fromEnd n)).getD (n - 1) ∧ (stop.map (fromEnd n)).getD (-1) < i ∧
      step.getD 1 ∣ min ((start.map (fromEnd n)).getD (n - 1)) (n - 1) - (i : Int) := by
  refine ⟨(slice_ordered n start stop step (by omega) ps hps).2 hs, fun i => ?_⟩
  rw [mem_slice n start stop step (by omega) ps hps i]
  have hi := i.isLt
  generalize hd : step.getD 1 = d at *
  have ha : ∀ j : Int, j = i → (j ≤ clipBound n (-1) (n - 1) start (n - 1) ↔ j ≤ (start.map (fromEnd n)).getD (n - 1)) ∧
      (j ≤ clipBound n (-1) (n - 1) start (n - 1) →
        clipBound n (-1) (n - 1) start (n - 1) = min ((start.map (fromEnd n)).getD (n - 1)) (n - 1)) := by
    intro j hj
    cases start with
    | none => simp [clipBound]
    | some s =>
      simp only [clipBound, Option.map_some, Option.getD_some, fromEnd]
      split <;> constructor <;> omega
  have hb : clipBound n (-1) (n - 1) stop (-1) < (i : Int) ↔ (stop.map (fromEnd n)).getD (-1) < (i : Int) := by
    cases stop with
    | none => simp [clipBound]
    | some s =>
      simp only [clipBound, Option.map_some, Option.getD_some, fromEnd]
      split <;> omega
  obtain ⟨ha1, ha2⟩ := ha i rfl
  rw [← ha1, ← hb]
  have e : ∀ k : Nat, k < (sliceRange n start stop d).2 ↔
      clipBound n (-1) (n - 1) stop (-1) < clipBound n (-1) (n - 1) start (n - 1) + k * d := by
    intro k
    unfold sliceRange
    rw [if_neg (by omega)]
    simp only
    have hkd : 0 ≤ (k : Int) * -d := Int.mul_nonneg (by omega) (by omega)
    have en : (k : Int) * -d = -(k * d) := by rw [Int.mul_neg]
    split
    · rename_i hab
      have := Int.ediv_nonneg (a := clipBound n (-1) (n - 1) start (n - 1) - clipBound n (-1) (n - 1) stop (-1) - 1) (b := -d) (by omega) (by omega)
      have h1 := Int.le_ediv_iff_mul_le (a := (k : Int)) (b := clipBound n (-1) (n - 1) start (n - 1) - clipBound n (-1) (n - 1) stop (-1) - 1)
        (c := -d) (by omega)
      omega
    · omega
  have e1 : (sliceRange n start stop d).1 = clipBound n (-1) (n - 1) start (n - 1) := by unfold sliceRange; rw [if_neg (by omega)]
  simp only [e, e1]
  constructor
  · rintro ⟨k, hk, h⟩
    have hkd : 0 ≤ (k : Int) * -d := Int.mul_nonneg (by omega) (by omega)
    have en : (k : Int) * -d = -(k * d) := by rw [Int.mul_neg]
    have hle : (i : Int) ≤ clipBound n (-1) (n - 1) start (n - 1) := by omega
    refine ⟨hle, by omega, ?_⟩
    rw [← ha2 hle]
    exact ⟨-k, by rw [Int.mul_neg, Int.mul_comm]; omega⟩
  · rintro ⟨h1, h2, c, h3⟩
    rw [← ha2 h1] at h3
    have hc : c ≤ 0 := by
      by_contra hc
      have : d * c < 0 := Int.mul_neg_of_neg_of_pos hs (by omega)
      omega
    refine ⟨(-c).toNat, ?_⟩
    have : (((-c).toNat : Nat) : Int) = -c := by omega
    have e3 : -c * d = -(d * c) := by rw [Int.neg_mul, Int.mul_comm]
    rw [this, e3]
    omega

/-- `a[-3::2]` and `a[::-2]` of an array with five entries (the hypotheses are met). -/
example : (∃ ps, (Item.slice (some (-3)) none (some 2)).positions 5 = .ok ps ∧ ps = [2, 4]) ∧
    (∃ ps, (Item.slice none none (some (-2))).positions 5 = .ok ps ∧ ps = [4, 2, 0]) :=
  ⟨⟨_, rfl, by decide⟩, ⟨_, rfl, by decide⟩⟩

end Pyadjoint
