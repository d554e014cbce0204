import Verif.Model.ArrayIndex
import Mathlib.Algebra.Ring.Basic
import Mathlib.Algebra.BigOperators.Ring.Finset
import Mathlib.Algebra.CharZero.Defs
import Mathlib.Data.Nat.Cast.Basic
import Mathlib.Data.List.Count
import Mathlib.Data.List.FinRange

/-!
# The adjoint of array indexing (C35)
-/

namespace Pyadjoint

open Finset

/-- The defining property of the adjoint of reading at `ps`: `⟨adj, a[item]⟩ = ⟨adj_output, a⟩`. -/
def AdjointIdentity {E : Type*} [CommRing E] {ι : Type*} [Fintype ι] [DecidableEq ι] (ps : List ι) : Prop :=
  ∀ (a : ι → E) (adj : List E), adj.length = ps.length →
    (List.zipWith (· * ·) adj (readAt a ps)).sum = ∑ i, sliceAdj ps adj i * a i

variable {E : Type*}

theorem assignAt_of_not_mem {ι : Type*} [DecidableEq ι] (z : ι → E) (ps : List ι) (vs : List E) (i : ι) (hi : i ∉ ps) :
    assignAt z ps vs i = z i := by
  induction ps generalizing z vs with
  | nil => rfl
  | cons p ps ih =>
    cases vs with
    | nil => rfl
    | cons v vs =>
      show assignAt (Function.update z p v) ps vs i = _
      rw [ih _ _ fun h => hi (List.mem_cons_of_mem _ h), Function.update_of_ne]
      rintro rfl
      exact hi (List.mem_cons_self ..)

theorem assignAt_sum [CommRing E] {ι : Type*} [Fintype ι] [DecidableEq ι] (a z : ι → E) (ps : List ι) (vs : List E)
    (hlen : vs.length = ps.length) (hnd : ps.Nodup) (hz : ∀ p ∈ ps, z p = 0) :
    ∑ i, assignAt z ps vs i * a i = ∑ i, z i * a i + (List.zipWith (· * ·) vs (readAt a ps)).sum := by
  induction ps generalizing z vs with
  | nil =>
    cases vs with
    | nil => simp [assignAt, readAt]
    | cons v vs => simp at hlen
  | cons p ps ih =>
    cases vs with
    | nil => simp at hlen
    | cons v vs =>
      obtain ⟨hp, hnd⟩ := List.nodup_cons.1 hnd
      show ∑ i, assignAt (Function.update z p v) ps vs i * a i = _
      rw [ih (Function.update z p v) vs (by simpa using hlen) hnd]
      · have : ∑ i, Function.update z p v i * a i = ∑ i, z i * a i + v * a p := by
          have h1 : ∀ i, Function.update z p v i * a i = z i * a i + (if i = p then v * a p else 0) := by
            intro i
            by_cases h : i = p
            · subst h; simp [hz i (List.mem_cons_self ..)]
            · simp [h]
          rw [Finset.sum_congr rfl fun i _ => h1 i, Finset.sum_add_distrib]
          simp
        rw [this]
        simp [readAt, add_assoc]
      · intro q hq
        rw [Function.update_of_ne]
        · exact hz q (List.mem_cons_of_mem _ hq)
        · rintro rfl; exact hp hq

theorem assignAt_const {ι : Type*} [DecidableEq ι] (z : ι → E) (ps : List ι) (v : E) (i : ι) (hi : i ∈ ps) :
    assignAt z ps (List.replicate ps.length v) i = v := by
  induction ps generalizing z with
  | nil => cases hi
  | cons p ps ih =>
    show assignAt (Function.update z p v) ps (List.replicate ps.length v) i = v
    by_cases h : i ∈ ps
    · exact ih _ h
    · rcases List.mem_cons.1 hi with rfl | h'
      · rw [assignAt_of_not_mem _ _ _ _ h]; simp
      · exact absurd h' h

/-- **C35.** The adjoint of reading at a list of positions is right for all arrays and all adjoint values iff no position
is repeated. -/
theorem index_adjoint_iff [CommRing E] [CharZero E] {ι : Type*} [Fintype ι] [DecidableEq ι] (ps : List ι) :
    AdjointIdentity (E := E) ps ↔ ps.Nodup := by
  constructor
  · intro h
    by_contra hnd
    have : ∃ p, 2 ≤ ps.count p := by
      by_contra hc
      push Not at hc
      exact hnd (List.nodup_iff_count_le_one.2 fun p => by have := hc p; omega)
    obtain ⟨p, hp⟩ := this
    have hmem : p ∈ ps := List.count_pos_iff.1 (by omega)
    have e := h (Pi.single p 1) (List.replicate ps.length 1) (by simp)
    have hr : ∑ i, sliceAdj ps (List.replicate ps.length (1 : E)) i * (Pi.single p 1 : ι → E) i = 1 := by
      rw [Finset.sum_eq_single p]
      · rw [sliceAdj, assignAt_const _ _ _ _ hmem]; simp
      · intro i _ hi; simp [hi]
      · simp
    have hl : ∀ l : List ι, (List.zipWith (· * ·) (List.replicate l.length (1 : E))
        (readAt (Pi.single p 1) l)).sum = (l.count p : E) := by
      intro l
      induction l with
      | nil => simp [readAt]
      | cons q l ih =>
        simp only [readAt] at ih
        simp only [List.length_cons, List.replicate_succ, readAt, List.map_cons, List.zipWith_cons_cons, List.sum_cons,
          one_mul, ih, List.count_cons]
        by_cases hq : q = p
        · subst hq; simp [add_comm]
        · simp [hq]
    rw [hr, hl] at e
    have : ps.count p = 1 := by exact_mod_cast e
    omega
  · intro hnd a adj hlen
    have := assignAt_sum a (fun _ => 0) ps adj hlen hnd fun _ _ => rfl
    rw [sliceAdj, this]
    simp

/-! ## Which index expressions repeat positions -/

theorem intPosition_val {n : Nat} {k : Int} {p : Fin n} (h : intPosition n k = some p) (hk : 0 ≤ k) :
    (p : Int) = k := by
  simp only [intPosition, if_neg (not_lt.2 hk)] at h
  split at h
  · cases h; simp; omega
  · cases h

/-- Positions of a slice are inside the array. -/
theorem slice_in_range (n : Nat) (start stop : Option Int) (step : Int) (hs : step ≠ 0) (k : Nat)
    (hk : k < (sliceRange n start stop step).2) :
    0 ≤ (sliceRange n start stop step).1 + k * step ∧ (sliceRange n start stop step).1 + k * step < n := by
  unfold sliceRange at hk ⊢
  have clip : ∀ lower upper o d, (lower : Int) ≤ upper → lower ≤ d → d ≤ upper →
      (lower = 0 ∧ upper = n ∨ lower = -1 ∧ upper = n - 1) →
      lower ≤ clipBound n lower upper o d ∧ clipBound n lower upper o d ≤ upper := by
    intro lower upper o d hlu h1 h2 hc
    cases o with
    | none => exact ⟨h1, h2⟩
    | some i =>
      simp only [clipBound]
      split
      · rename_i hi
        refine ⟨le_max_right _ _, max_le ?_ hlu⟩
        rcases hc with ⟨_, rfl⟩ | ⟨_, rfl⟩ <;> omega
      · rename_i hi
        refine ⟨le_min ?_ hlu, min_le_right _ _⟩
        rcases hc with ⟨rfl, _⟩ | ⟨rfl, _⟩ <;> omega
  split at hk
  · rename_i hpos
    rw [if_pos hpos]
    simp only at hk ⊢
    obtain ⟨a1, a2⟩ := clip 0 n start 0 (by omega) (by omega) (by omega) (Or.inl ⟨rfl, rfl⟩)
    obtain ⟨b1, b2⟩ := clip 0 n stop n (by omega) (by omega) (by omega) (Or.inl ⟨rfl, rfl⟩)
    generalize clipBound (↑n) 0 (↑n) start 0 = a at *
    generalize clipBound (↑n) 0 (↑n) stop ↑n = b at *
    split at hk
    · rename_i hab
      have hdiv : 0 ≤ (b - a - 1) / step := Int.ediv_nonneg (by omega) (by omega)
      have hk' : (k : Int) ≤ (b - a - 1) / step := by omega
      have : (k : Int) * step ≤ b - a - 1 :=
        le_trans (Int.mul_le_mul_of_nonneg_right hk' (by omega)) (Int.ediv_mul_le _ (by omega))
      have h0 : 0 ≤ (k : Int) * step := Int.mul_nonneg (by omega) (by omega)
      constructor <;> omega
    · omega
  · rename_i hpos
    rw [if_neg hpos]
    simp only at hk ⊢
    obtain ⟨a1, a2⟩ := clip (-1) (n - 1) start (n - 1) (by omega) (by omega) (by omega) (Or.inr ⟨rfl, rfl⟩)
    obtain ⟨b1, b2⟩ := clip (-1) (n - 1) stop (-1) (by omega) (by omega) (by omega) (Or.inr ⟨rfl, rfl⟩)
    generalize clipBound (↑n) (-1) (↑n - 1) start (↑n - 1) = a at *
    generalize clipBound (↑n) (-1) (↑n - 1) stop (-1) = b at *
    split at hk
    · rename_i hab
      have hneg : 0 < -step := by omega
      have hdiv : 0 ≤ (a - b - 1) / -step := Int.ediv_nonneg (by omega) (by omega)
      have hk' : (k : Int) ≤ (a - b - 1) / -step := by omega
      have : (k : Int) * -step ≤ a - b - 1 :=
        le_trans (Int.mul_le_mul_of_nonneg_right hk' (by omega)) (Int.ediv_mul_le _ (by omega))
      have h0 : 0 ≤ (k : Int) * -step := Int.mul_nonneg (by omega) (by omega)
      have e : (k : Int) * -step = -(k * step) := by rw [Int.mul_neg]
      constructor <;> omega
    · omega

/-- **C35, integers, slices and masks.** These never repeat a position, whatever the bounds, the step and the array length, so
the adjoint is right for them. -/
theorem index_adjoint_partial [CommRing E] [CharZero E] (n : Nat) (item : Item)
    (hitem : ∀ l, item ≠ .list l) (ps : List (Fin n)) (hps : item.positions n = .ok ps) :
    ps.Nodup ∧ AdjointIdentity (E := E) ps := by
  have : ps.Nodup := by
    cases item with
    | int k =>
      simp only [Item.positions] at hps
      split at hps
      · cases hps
      · cases hps; simp
    | list l => exact absurd rfl (hitem l)
    | mask m =>
      simp only [Item.positions] at hps
      split at hps
      · cases hps
      · cases hps; exact (List.nodup_finRange n).filter _
    | slice start stop step =>
      simp only [Item.positions] at hps
      split at hps
      · cases hps
      · rename_i hs
        cases hps
        have key : ∀ l : List Nat, l.Nodup → (∀ k ∈ l, k < (sliceRange n start stop (step.getD 1)).2) →
            (l.filterMap fun (k : Nat) => intPosition n ((sliceRange n start stop (step.getD 1)).1 + k * step.getD 1)).Nodup := by
          intro l
          induction l with
          | nil => intro _ _; simp
          | cons k l ih =>
            intro hnd hl
            obtain ⟨hk, hnd⟩ := List.nodup_cons.1 hnd
            have ihl := ih hnd fun j hj => hl j (List.mem_cons_of_mem _ hj)
            rw [List.filterMap_cons]
            split
            · exact ihl
            · rename_i p hp
              refine List.nodup_cons.2 ⟨fun hmem => ?_, ihl⟩
              obtain ⟨j, hj, hjp⟩ := List.mem_filterMap.1 hmem
              have e1 := intPosition_val hp (slice_in_range n start stop _ hs k (hl k (List.mem_cons_self ..))).1
              have e2 := intPosition_val hjp (slice_in_range n start stop _ hs j (hl j (List.mem_cons_of_mem _ hj))).1
              have e3 : (k : Int) * step.getD 1 = j * step.getD 1 := by omega
              have e4 : (k : Int) = j := Int.eq_of_mul_eq_mul_right hs e3
              have : k = j := by omega
              subst this
              exact hk hj
        exact key _ List.nodup_range fun k hk => List.mem_range.1 hk
  exact ⟨this, (index_adjoint_iff ps).2 this⟩

/-- A slice reads as many positions as its range has: none is dropped for being outside. -/
theorem slice_length (n : Nat) (start stop : Option Int) (step : Int) (hs : step ≠ 0) :
    ∃ ps, (Item.slice start stop (some step)).positions n = .ok ps ∧
      ps.length = (sliceRange n start stop step).2 ∧
      ∀ (k : Nat) (p : Fin n), ps[k]? = some p → (p : Int) = (sliceRange n start stop step).1 + k * step := by
  refine ⟨_, by simp only [Item.positions, Option.getD_some, if_neg hs]; rfl, ?_⟩
  have key : ∀ m, m ≤ (sliceRange n start stop step).2 →
      ((List.range m).filterMap fun (k : Nat) => intPosition n ((sliceRange n start stop step).1 + k * step)).length = m ∧
      ∀ (k : Nat) (p : Fin n), ((List.range m).filterMap fun (k : Nat) =>
        intPosition n ((sliceRange n start stop step).1 + k * step))[k]? = some p →
          (p : Int) = (sliceRange n start stop step).1 + k * step := by
    intro m
    induction m with
    | zero => intro _; exact ⟨rfl, fun k p h => by simp at h⟩
    | succ m ih =>
      intro hm
      obtain ⟨h1, h2⟩ := ih (by omega)
      have hr := slice_in_range n start stop step hs m (by omega)
      obtain ⟨p, hp⟩ : ∃ p, intPosition n ((sliceRange n start stop step).1 + m * step) = some p := by
        simp only [intPosition, if_neg (not_lt.2 hr.1)]
        rw [dif_pos hr]
        exact ⟨_, rfl⟩
      rw [List.range_succ, List.filterMap_append]
      simp only [List.filterMap_cons, hp, List.filterMap_nil]
      refine ⟨by simp [h1], fun k q hq => ?_⟩
      by_cases hk : k < m
      · rw [List.getElem?_append_left (by omega)] at hq
        exact h2 k q hq
      · rw [List.getElem?_append_right (by omega), h1] at hq
        have : k = m := by
          by_contra hne
          rw [List.getElem?_eq_none (by simp; omega)] at hq
          cases hq
        subst this
        simp at hq
        subst hq
        exact intPosition_val hp hr.1
  exact key _ (Nat.le_refl _)

/-- **C35 is false of the code for repeated indices.** `a[[0, 0]]` with adjoint values `1` and `1`: the derivative of
`a[0] + a[0]` is 2, the code gives 1. -/
theorem repeated_index_wrong :
    (Item.list [0, 0]).positions 2 = .ok [0, 0] ∧ sliceAdj [0, 0] [(1 : Int), 1] (0 : Fin 2) = 1 ∧
    ¬ AdjointIdentity (E := Int) ([0, 0] : List (Fin 2)) := by
  refine ⟨rfl, rfl, fun h => ?_⟩
  have := (index_adjoint_iff _).1 h
  simp at this

/-- A reversed slice, negative indices, a mask. -/
example : (Item.slice none none (some (-2))).positions 5 = .ok [4, 2, 0] ∧ (Item.int (-1)).positions 5 = .ok [4] ∧
    (Item.slice (some (-3)) (some 100) none).positions 5 = .ok [2, 3, 4] ∧
    (Item.mask [true, false, true]).positions 3 = .ok [0, 2] ∧ (Item.int 5).positions 5 = .error .indexError :=
  ⟨rfl, rfl, rfl, rfl, rfl⟩

end Pyadjoint
