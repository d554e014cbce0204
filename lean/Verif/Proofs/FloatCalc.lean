import Verif.Model.Float
import Verif.Proofs.Replay
import Verif.Spec.Calculus
import Verif.Proofs.Duality
import Mathlib.Analysis.SpecialFunctions.Pow.Deriv
import Mathlib.Analysis.SpecialFunctions.Log.Deriv
import Mathlib.Analysis.Calculus.FDeriv.Basic
import Mathlib.Analysis.Calculus.FDeriv.Mul
import Mathlib.Analysis.Calculus.FDeriv.Pi

/-! Calculus of the `AdjFloat` operations and of the replay of an `AdjFloat` tape. -/

namespace Pyadjoint

/-- The unary operation is defined in Python and differentiable at `a`. -/
def UOp.Smooth : UOp → ℝ → Prop
  | .log, a => 0 < a
  | _, _ => True

/-- The binary operation is defined in Python near `(a, b)` and differentiable with respect to
the operands that vary; `vb` says whether the second operand varies. -/
def BOp.Smooth (op : BOp) (a b : ℝ) (vb : Prop) : Prop :=
  match op with
  | .div => b ≠ 0
  | .pow => 0 < a ∨ (¬ vb ∧ ∃ n : ℤ, b = n ∧ (a ≠ 0 ∨ 1 ≤ n))
  | .min | .max => a ≠ b
  | .add | .sub | .mul => True

section
variable {E : Type*} [NormedAddCommGroup E] [NormedSpace ℝ E]

theorem UOp.hasFDerivWithinAt (op : UOp) {f : E → ℝ} {f' : E →L[ℝ] ℝ} {s : Set E} {x : E}
    (hf : HasFDerivWithinAt f f' s x) (hs : op.Smooth (f x)) :
    HasFDerivWithinAt (fun y => op.val (f y)) (op.adjC (f x) 1 • f') s x := by
  cases op with
  | neg =>
    have := hf.neg
    simp only [UOp.val, UOp.adjC]
    refine HasFDerivWithinAt.congr_fderiv this ?_
    ext y; simp
  | exp => simpa [UOp.val, UOp.adjC] using hf.exp
  | log =>
    have := hf.log (ne_of_gt hs)
    simpa [UOp.val, UOp.adjC] using this

theorem BOp.hasFDerivWithinAt (op : BOp) {f g : E → ℝ} {f' g' : E →L[ℝ] ℝ} {s : Set E} {x : E}
    {vb : Prop} (hf : HasFDerivWithinAt f f' s x) (hg : HasFDerivWithinAt g g' s x)
    (hvb : ¬ vb → g' = 0 ∧ ∀ y ∈ s, g y = g x)
    (hs : op.Smooth (f x) (g x) vb) :
    HasFDerivWithinAt (fun y => op.val (f y) (g y))
      (op.adjC (f x) (g x) 1 0 • f' + op.adjC (f x) (g x) 1 1 • g') s x := by
  cases op with
  | add =>
    have := hf.add hg
    simp only [BOp.val, BOp.adjC, one_smul]
    exact this
  | sub =>
    have := hf.sub hg
    simp only [BOp.val, BOp.adjC]
    refine HasFDerivWithinAt.congr_fderiv this ?_
    ext y
    simp [sub_eq_add_neg]
  | mul =>
    have := hf.mul hg
    simp only [BOp.val, BOp.adjC]
    refine HasFDerivWithinAt.congr_fderiv this ?_
    ext y
    simp [add_comm]
  | div =>
    have hs : g x ≠ 0 := hs
    have h1 : HasFDerivWithinAt (fun y => (g y)⁻¹) ((-((g x) ^ 2)⁻¹) • g') s x :=
      (hasDerivAt_inv hs).comp_hasFDerivWithinAt x hg
    have := hf.mul h1
    simp only [BOp.val, BOp.adjC]
    refine HasFDerivWithinAt.congr_fderiv this ?_
    ext y
    simp
    field_simp
    ring
  | pow =>
    simp only [BOp.val, BOp.adjC]
    by_cases hpos : 0 < f x
    · have := hf.rpow hg hpos
      refine HasFDerivWithinAt.congr_fderiv this ?_
      ext y
      simp [mul_comm]
    · rcases hs with h | ⟨hb, n, hn, h⟩
      · exact absurd h hpos
      · obtain ⟨hg0, hconst⟩ := hvb hb
        have hcond : f x ≠ 0 ∨ 1 ≤ g x := by
          rcases h with h | h
          · exact Or.inl h
          · right; rw [hn]; exact_mod_cast h
        have hd := (Real.hasDerivAt_rpow_const (x := f x) (p := g x)
          hcond).comp_hasFDerivWithinAt x hf
        rw [hg0]
        refine HasFDerivWithinAt.congr (f := (fun x_1 => x_1 ^ g x) ∘ f) ?_ ?_ ?_
        · refine HasFDerivWithinAt.congr_fderiv hd ?_
          simp
        · intro y hy
          simp only [Function.comp]
          rw [hconst y hy]
        · rfl
  | min =>
    simp only [BOp.val, BOp.adjC]
    have hs : f x ≠ g x := hs
    rcases lt_or_gt_of_ne hs with h | h
    · have hev : (fun y => if g y < f y then g y else f y) =ᶠ[nhdsWithin x s] f := by
        filter_upwards [hf.continuousWithinAt.eventually_lt hg.continuousWithinAt h] with y hy
        rw [if_neg (not_lt.2 hy.le)]
      refine HasFDerivWithinAt.congr_of_eventuallyEq ?_ hev (by simp [h.le])
      simpa [h.le] using hf
    · have hev : (fun y => if g y < f y then g y else f y) =ᶠ[nhdsWithin x s] g := by
        filter_upwards [hg.continuousWithinAt.eventually_lt hf.continuousWithinAt h] with y hy
        rw [if_pos hy]
      refine HasFDerivWithinAt.congr_of_eventuallyEq ?_ hev (by simp [h])
      simpa [not_le.2 h] using hg
  | max =>
    simp only [BOp.val, BOp.adjC]
    have hs : f x ≠ g x := hs
    rcases lt_or_gt_of_ne hs with h | h
    · have hev : (fun y => if g y > f y then g y else f y) =ᶠ[nhdsWithin x s] g := by
        filter_upwards [hf.continuousWithinAt.eventually_lt hg.continuousWithinAt h] with y hy
        rw [if_pos hy]
      refine HasFDerivWithinAt.congr_of_eventuallyEq ?_ hev (by simp [h])
      simpa [not_le.2 h] using hg
    · have hev : (fun y => if g y > f y then g y else f y) =ᶠ[nhdsWithin x s] f := by
        filter_upwards [hg.continuousWithinAt.eventually_lt hf.continuousWithinAt h] with y hy
        rw [if_neg (not_lt.2 hy.le)]
      refine HasFDerivWithinAt.congr_of_eventuallyEq ?_ hev (by simp [h.le])
      simpa [h.le] using hf

theorem BOp.hasFDerivAt (op : BOp) {f g : E → ℝ} {f' g' : E →L[ℝ] ℝ} {x : E} {vb : Prop}
    (hf : HasFDerivAt f f' x) (hg : HasFDerivAt g g' x) (hvb : ¬ vb → ∀ y, g y = g x)
    (hs : op.Smooth (f x) (g x) vb) :
    HasFDerivAt (fun y => op.val (f y) (g y))
      (op.adjC (f x) (g x) 1 0 • f' + op.adjC (f x) (g x) 1 1 • g') x := by
  rw [← hasFDerivWithinAt_univ] at *
  refine op.hasFDerivWithinAt hf hg (vb := vb) (fun h => ⟨?_, fun y _ => hvb h y⟩) hs
  have hconst : g = fun _ => g x := funext (hvb h)
  rw [hasFDerivWithinAt_univ, hconst] at hg
  exact hg.unique (hasFDerivAt_const _ _)

theorem UOp.hasFDerivAt (op : UOp) {f : E → ℝ} {f' : E →L[ℝ] ℝ} {x : E}
    (hf : HasFDerivAt f f' x) (hs : op.Smooth (f x)) :
    HasFDerivAt (fun y => op.val (f y)) (op.adjC (f x) 1 • f') x := by
  rw [← hasFDerivWithinAt_univ] at *
  exact op.hasFDerivWithinAt hf hs

end

/-- Adjoint values of floats stand for multiplication. -/
noncomputable def mulFunctional : ℝ →+ (ℝ →L[ℝ] ℝ) where
  toFun a := a • ContinuousLinearMap.id ℝ ℝ
  map_zero' := by simp
  map_add' a b := by rw [add_smul]

@[simp] theorem mulFunctional_apply (a x : ℝ) : mulFunctional a x = a * x := by
  simp [mulFunctional]

theorem UOp.adjC_mul (op : UOp) (a l : ℝ) : op.adjC a l = l * op.adjC a 1 := by
  cases op <;> simp [UOp.adjC] <;> ring

theorem BOp.adjC_mul (op : BOp) (a b l : ℝ) (i : Nat) :
    op.adjC a b l i = l * op.adjC a b 1 i := by
  cases op <;> simp only [BOp.adjC] <;> (try split) <;> (try split) <;> ring

/-- The domain condition of a block, at input values given by `val`; `vary` says which variables
vary. -/
def FBlock.Smooth (val : BV → ℝ) (vary : BV → Prop) : FBlock → Prop
  | .un op a _ => op.Smooth (val a)
  | .bin op a b _ => op.Smooth (val a) (val b) (vary b)

theorem UOp.correct_aux (op : UOp) (x : Fin 1 → ℝ) (s : Set (Fin 1 → ℝ)) (hs : op.Smooth (x 0)) :
    HasFDerivWithinAt (fun u : Fin 1 → ℝ => ((List.ofFn u)[0]?.map op.val).getD 0)
      (∑ j : Fin 1, (op.adjC (x 0) 1 • ContinuousLinearMap.id ℝ ℝ).comp
        (ContinuousLinearMap.proj (R := ℝ) (φ := fun _ : Fin 1 => ℝ) j)) s x := by
  have h0 := (ContinuousLinearMap.proj (R := ℝ) (φ := fun _ : Fin 1 => ℝ)
    0).hasFDerivWithinAt (s := s) (x := x)
  have := op.hasFDerivWithinAt h0 hs
  have e : (fun u : Fin 1 → ℝ => ((List.ofFn u)[0]?.map op.val).getD 0)
      = fun u : Fin 1 → ℝ => op.val (u 0) := by funext u; simp
  rw [e]
  refine HasFDerivWithinAt.congr_fderiv this ?_
  ext y
  simp

theorem BOp.correct_aux (op : BOp) (x : Fin 2 → ℝ) (s : Set (Fin 2 → ℝ)) (vb : Prop)
    (hvb : ¬ vb → ∀ u ∈ s, u 1 = x 1) (hs : op.Smooth (x 0) (x 1) vb) :
    HasFDerivWithinAt (fun u : Fin 2 → ℝ => (((List.ofFn u)[0]?).bind fun x =>
        ((List.ofFn u)[1]?).map fun y => op.val x y).getD 0)
      (∑ j : Fin 2, (op.adjC (x 0) (x 1) 1 j • ContinuousLinearMap.id ℝ ℝ).comp
        (ContinuousLinearMap.proj (R := ℝ) (φ := fun _ : Fin 2 => ℝ) j)) s x := by
  have h0 := (ContinuousLinearMap.proj (R := ℝ) (φ := fun _ : Fin 2 => ℝ)
    0).hasFDerivWithinAt (s := s) (x := x)
  have h1 := (ContinuousLinearMap.proj (R := ℝ) (φ := fun _ : Fin 2 => ℝ)
    1).hasFDerivWithinAt (s := s) (x := x)
  have e : (fun u : Fin 2 → ℝ => (((List.ofFn u)[0]?).bind fun x =>
      ((List.ofFn u)[1]?).map fun y => op.val x y).getD 0)
      = fun u : Fin 2 → ℝ => op.val (u 0) (u 1) := by funext u; simp
  rw [e]
  by_cases hv : vb
  · have := op.hasFDerivWithinAt h0 h1 (vb := vb) (fun h => absurd hv h) hs
    refine HasFDerivWithinAt.congr_fderiv this ?_
    ext y
    rw [Fin.sum_univ_two]
    simp
  · -- within the set the second operand is constant, its derivative can be taken zero
    have hc : HasFDerivWithinAt (fun u : Fin 2 → ℝ => u 1) (0 : (Fin 2 → ℝ) →L[ℝ] ℝ) s x :=
      HasFDerivWithinAt.congr (hasFDerivWithinAt_const (x 1) _ _) (hvb hv) rfl
    have := op.hasFDerivWithinAt h0 hc (vb := vb) (fun h => ⟨rfl, hvb hv⟩) hs
    -- the extra term has no effect on directions inside the set
    have hz : HasFDerivWithinAt (op.adjC (x 0) (x 1) 1 1 • fun u : Fin 2 → ℝ => u 1 - x 1)
        (op.adjC (x 0) (x 1) 1 1 • ContinuousLinearMap.proj (R := ℝ)
          (φ := fun _ : Fin 2 => ℝ) 1) s x := (h1.sub_const (x 1)).const_smul _
    have hsum := this.add hz
    refine HasFDerivWithinAt.congr (HasFDerivWithinAt.congr_fderiv hsum ?_) ?_ ?_
    · ext y
      rw [Fin.sum_univ_two]
      simp
    · intro u hu
      have : u 1 = x 1 := hvb hv u hu
      simp [this]
    · simp

/-- The `AdjFloat` blocks are correctly implemented inside their domains. -/
theorem FBlock.correctAdjoint (blk : FBlock) (val : BV → ℝ) (vary : BV → Prop)
    (hs : blk.Smooth val vary) :
    CorrectAdjoint mulFunctional blk.toBlock (fun j => val blk.toBlock.deps[j])
      (fun j => vary blk.toBlock.deps[j]) := by
  cases blk with
  | un op a o =>
    refine ⟨fun u i => ?_, fun _ _ => op.adjC (val a) 1 • ContinuousLinearMap.id ℝ ℝ,
      fun i => op.correct_aux (fun j : Fin 1 => val [a][j]) _ hs, ?_⟩
    · change Fin 1 → ℝ at u
      change ((List.ofFn u)[0]?.map op.val).isSome
      simp
    · intro lam hlam j _
      change Fin 1 → Option ℝ at lam
      change Fin 1 at j
      obtain ⟨i, hi⟩ := hlam
      change Fin 1 at i
      have hi0 : i = 0 := Subsingleton.elim _ _
      obtain ⟨l, hl⟩ := Option.ne_none_iff_exists'.1 hi
      rw [hi0] at hl
      change optFunctional mulFunctional (((List.ofFn lam)[0]?).join.bind fun l =>
        ((List.ofFn fun j : Fin 1 => val [a][j])[0]?).map fun x => op.adjC x l)
        = ∑ i : Fin 1, _
      ext
      simp [hl, optFunctional]
      rw [UOp.adjC_mul, mul_comm]
  | bin op a b o =>
    refine ⟨fun u i => ?_, fun _ j => op.adjC (val a) (val b) 1 j • ContinuousLinearMap.id ℝ ℝ,
      fun i => op.correct_aux (fun j : Fin 2 => val [a, b][j]) _ (vary b)
        (fun hb u hu => hu (1 : Fin 2) hb) hs, ?_⟩
    · change Fin 2 → ℝ at u
      change (((List.ofFn u)[0]?).bind fun x => ((List.ofFn u)[1]?).map fun y => op.val x y).isSome
      simp
    · intro lam hlam j _
      change Fin 1 → Option ℝ at lam
      change Fin 2 at j
      obtain ⟨i, hi⟩ := hlam
      change Fin 1 at i
      have hi0 : i = 0 := Subsingleton.elim _ _
      obtain ⟨l, hl⟩ := Option.ne_none_iff_exists'.1 hi
      rw [hi0] at hl
      change optFunctional mulFunctional (((List.ofFn lam)[0]?).join.bind fun l =>
        ((List.ofFn fun j : Fin 2 => val [a, b][j])[0]?).bind fun x =>
          ((List.ofFn fun j : Fin 2 => val [a, b][j])[1]?).map fun y => op.adjC x y l j)
        = ∑ i : Fin 1, _
      ext
      simp [hl, optFunctional]
      rw [BOp.adjC_mul, mul_comm]

end Pyadjoint
