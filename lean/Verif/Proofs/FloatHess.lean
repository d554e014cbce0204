import Verif.Proofs.FloatTlm
import Mathlib.Analysis.SpecialFunctions.ExpDeriv

/-! Second order: the Hessian sweep over `AdjFloat` blocks differentiates the adjoint sweep. -/

set_option linter.unusedSimpArgs false
set_option linter.unnecessarySeqFocus false
set_option linter.unreachableTactic false
set_option linter.unusedTactic false

namespace Pyadjoint

/-- The unary operation is twice differentiable at `a`. -/
def UOp.Smooth2 : UOp → ℝ → Prop
  | .log, a => 0 < a
  | _, _ => True

/-- The binary operation is defined in Python near `(a, b)` and twice differentiable with respect to the
operands that vary; `vb` says whether the second operand varies. -/
def BOp.Smooth2 (op : BOp) (a b : ℝ) (vb : Prop) : Prop :=
  match op with
  | .div => b ≠ 0
  | .pow => 0 < a ∨ (¬ vb ∧ ∃ n : ℤ, b = n ∧ (a ≠ 0 ∨ 2 ≤ n))
  | .min | .max => a ≠ b
  | .add | .sub | .mul => True

/-- Second order domain condition of a block. -/
def FBlock.Smooth2 (val : BV → ℝ) (vary : BV → Prop) : FBlock → Prop
  | .un op a _ => op.Smooth2 (val a)
  | .bin op a b _ => op.Smooth2 (val a) (val b) (vary b)

theorem FBlock.Smooth2.smooth {val : BV → ℝ} {vary : BV → Prop} {b : FBlock}
    (h : b.Smooth2 val vary) : b.Smooth val vary := by
  cases b with
  | un op a o => cases op <;> exact h
  | bin op a b o =>
    cases op
    case pow =>
      rcases h with h | ⟨h1, n, h2, h3⟩
      · exact Or.inl h
      · refine Or.inr ⟨h1, n, h2, h3.imp_right fun h => by omega⟩
    all_goals exact h

open Classical in
/-- Derivative of the output with respect to the variable `v` (which may be both operands). -/
noncomputable def FBlock.coef (val : BV → ℝ) (v : BV) : FBlock → ℝ
  | un op a _ => if a = v then op.adjC (val a) 1 else 0
  | bin op a b _ => (if a = v then op.adjC (val a) (val b) 1 0 else 0)
      + if b = v then op.adjC (val a) (val b) 1 1 else 0

/-- Second derivative of the unary operations. -/
noncomputable def UOp.d2 (op : UOp) (x t : ℝ) : ℝ :=
  match op with
  | .neg => 0
  | .exp => Real.exp x * t
  | .log => -(t / x ^ 2)

/-- Derivative of the first partial derivative in direction `(ta, tb)`. -/
noncomputable def BOp.d2a (op : BOp) (x y ta tb : ℝ) : ℝ :=
  match op with
  | .mul => tb
  | .div => -(tb / y ^ 2)
  | .pow => y * (y - 1) * x ^ (y - 2) * ta + x ^ (y - 1) * (y * Real.log x + 1) * tb
  | .add | .sub | .min | .max => 0

/-- Derivative of the second partial derivative in direction `(ta, tb)`. -/
noncomputable def BOp.d2b (op : BOp) (x y ta tb : ℝ) : ℝ :=
  match op with
  | .mul => ta
  | .div => -(ta / y ^ 2) + 2 * x / y ^ 3 * tb
  | .pow => (Real.log x) ^ 2 * x ^ y * tb + x ^ (y - 1) * (y * Real.log x + 1) * ta
  | .add | .sub | .min | .max => 0

open Classical in
/-- Directional derivative of `coef`. -/
noncomputable def FBlock.coef2 (val : BV → ℝ) (tl : BV → ℝ) (v : BV) : FBlock → ℝ
  | un op a _ => if a = v then op.d2 (val a) (tl a) else 0
  | bin op a b _ => (if a = v then op.d2a (val a) (val b) (tl a) (tl b) else 0)
      + if b = v then op.d2b (val a) (val b) (tl a) (tl b) else 0

theorem UOp.adjC_hasDerivAt (op : UOp) {f : ℝ → ℝ} {f' : ℝ} (hf : HasDerivAt f f' 0)
    (hs : op.Smooth2 (f 0)) : HasDerivAt (fun s => op.adjC (f s) 1) (op.d2 (f 0) f') 0 := by
  cases op with
  | neg => simpa [UOp.adjC, UOp.d2] using hasDerivAt_const (0 : ℝ) (-1 : ℝ)
  | exp => simpa [UOp.adjC, UOp.d2] using hf.exp
  | log =>
    have hs : 0 < f 0 := hs
    have := hf.inv hs.ne'
    simp only [UOp.adjC, UOp.d2, one_div]
    exact this.congr_deriv (by ring)

theorem BOp.adjC0_hasDerivAt (op : BOp) {f g : ℝ → ℝ} {f' g' : ℝ} (vb : Prop)
    (hf : HasDerivAt f f' 0) (hg : HasDerivAt g g' 0) (hvb : ¬ vb → (∀ s, g s = g 0) ∧ g' = 0)
    (hs : op.Smooth2 (f 0) (g 0) vb) :
    HasDerivAt (fun s => op.adjC (f s) (g s) 1 0) (op.d2a (f 0) (g 0) f' g') 0 := by
  cases op with
  | add | sub => simpa [BOp.adjC, BOp.d2a] using hasDerivAt_const (0 : ℝ) (1 : ℝ)
  | mul => simpa [BOp.adjC, BOp.d2a] using hg
  | div =>
    have hs : g 0 ≠ 0 := hs
    have := hg.inv hs
    simp only [BOp.adjC, BOp.d2a, one_div, one_mul, if_true]
    exact this.congr_deriv (by ring)
  | pow =>
    simp only [BOp.adjC, BOp.d2a, one_mul, if_true]
    by_cases hpos : 0 < f 0
    · have h1 := hg.mul (hf.rpow (hg.sub_const 1) hpos)
      refine h1.congr_deriv ?_
      have e : g 0 - 2 = g 0 - 1 - 1 := by ring
      rw [e]
      ring
    · rcases hs with h | ⟨hb, n, hn, h⟩
      · exact absurd h hpos
      · obtain ⟨hc, hg0⟩ := hvb hb
        have hcond : f 0 ≠ 0 ∨ 1 ≤ g 0 - 1 := by
          rcases h with h | h
          · exact Or.inl h
          · right; rw [hn]; have : (2 : ℝ) ≤ n := by exact_mod_cast h
            linarith
        have hd := (Real.hasDerivAt_rpow_const (x := f 0) (p := g 0 - 1) hcond).comp (0 : ℝ) hf
        have h2 := hd.const_mul (g 0)
        have e : (fun s => g s * f s ^ (g s - 1)) = fun s => g 0 * ((fun x => x ^ (g 0 - 1)) ∘ f) s := by
          funext s; rw [hc s]; rfl
        rw [e]
        refine h2.congr_deriv ?_
        have e : g 0 - 2 = g 0 - 1 - 1 := by ring
        rw [hg0, e]
        ring
  | min =>
    have hs : f 0 ≠ g 0 := hs
    simp only [BOp.adjC, BOp.d2a]
    rcases lt_or_gt_of_ne hs with h | h
    · refine (hasDerivAt_const (0 : ℝ) (1 : ℝ)).congr_of_eventuallyEq ?_
      filter_upwards [hf.continuousAt.eventually_lt hg.continuousAt h] with y hy
      simp [hy.le]
    · refine (hasDerivAt_const (0 : ℝ) (0 : ℝ)).congr_of_eventuallyEq ?_
      filter_upwards [hg.continuousAt.eventually_lt hf.continuousAt h] with y hy
      simp [not_le.2 hy]
  | max =>
    have hs : f 0 ≠ g 0 := hs
    simp only [BOp.adjC, BOp.d2a]
    rcases lt_or_gt_of_ne hs with h | h
    · refine (hasDerivAt_const (0 : ℝ) (0 : ℝ)).congr_of_eventuallyEq ?_
      filter_upwards [hf.continuousAt.eventually_lt hg.continuousAt h] with y hy
      simp [not_le.2 hy]
    · refine (hasDerivAt_const (0 : ℝ) (1 : ℝ)).congr_of_eventuallyEq ?_
      filter_upwards [hg.continuousAt.eventually_lt hf.continuousAt h] with y hy
      simp [hy.le]

/-- Only used where the second operand varies. -/
theorem BOp.adjC1_hasDerivAt (op : BOp) {f g : ℝ → ℝ} {f' g' : ℝ} (vb : Prop) (hv : vb)
    (hf : HasDerivAt f f' 0) (hg : HasDerivAt g g' 0)
    (hs : op.Smooth2 (f 0) (g 0) vb) :
    HasDerivAt (fun s => op.adjC (f s) (g s) 1 1) (op.d2b (f 0) (g 0) f' g') 0 := by
  cases op with
  | add => simpa [BOp.adjC, BOp.d2b] using hasDerivAt_const (0 : ℝ) (1 : ℝ)
  | sub => simpa [BOp.adjC, BOp.d2b] using hasDerivAt_const (0 : ℝ) (-1 : ℝ)
  | mul => simpa [BOp.adjC, BOp.d2b] using hf
  | div =>
    have hs : g 0 ≠ 0 := hs
    have h1 : HasDerivAt (fun s => -(f s / g s ^ 2)) _ 0 :=
      (hf.div (hg.pow 2) (pow_ne_zero 2 hs)).neg
    simp only [BOp.adjC, BOp.d2b, one_mul, one_ne_zero, if_false]
    refine h1.congr_deriv ?_
    simp only [Pi.pow_apply]
    field_simp
    ring
  | pow =>
    have hpos : 0 < f 0 := by
      rcases hs with h | ⟨h, _⟩
      · exact h
      · exact absurd hv h
    simp only [BOp.adjC, BOp.d2b, one_mul, one_ne_zero, if_false]
    have h1 := (hf.log hpos.ne').mul (hf.rpow hg hpos)
    refine h1.congr_deriv ?_
    have e : f 0 ^ g 0 = f 0 ^ (g 0 - 1) * f 0 := by
      rw [Real.rpow_sub hpos, Real.rpow_one]; field_simp
    rw [e]
    field_simp
    ring
  | min =>
    have hs : f 0 ≠ g 0 := hs
    simp only [BOp.adjC, BOp.d2b]
    rcases lt_or_gt_of_ne hs with h | h
    · refine (hasDerivAt_const (0 : ℝ) (0 : ℝ)).congr_of_eventuallyEq ?_
      filter_upwards [hf.continuousAt.eventually_lt hg.continuousAt h] with y hy
      simp [hy.le]
    · refine (hasDerivAt_const (0 : ℝ) (1 : ℝ)).congr_of_eventuallyEq ?_
      filter_upwards [hg.continuousAt.eventually_lt hf.continuousAt h] with y hy
      simp [not_le.2 hy]
  | max =>
    have hs : f 0 ≠ g 0 := hs
    simp only [BOp.adjC, BOp.d2b]
    rcases lt_or_gt_of_ne hs with h | h
    · refine (hasDerivAt_const (0 : ℝ) (1 : ℝ)).congr_of_eventuallyEq ?_
      filter_upwards [hf.continuousAt.eventually_lt hg.continuousAt h] with y hy
      simp [not_le.2 hy]
    · refine (hasDerivAt_const (0 : ℝ) (0 : ℝ)).congr_of_eventuallyEq ?_
      filter_upwards [hg.continuousAt.eventually_lt hf.continuousAt h] with y hy
      simp [hy.le]

theorem FBlock.coef_hasDerivAt (blk : FBlock) (val : ℝ → BV → ℝ) (tl : BV → ℝ) (vary : BV → Prop)
    (hval : ∀ d ∈ blk.deps, HasDerivAt (fun s => val s d) (tl d) 0)
    (hconst : ∀ d ∈ blk.deps, ¬ vary d → (∀ s, val s d = val 0 d) ∧ tl d = 0)
    (hs : blk.Smooth2 (val 0) vary) (v : BV) (hv : vary v) :
    HasDerivAt (fun s => blk.coef (val s) v) (blk.coef2 (val 0) tl v) 0 := by
  cases blk with
  | un op a o =>
    simp only [coef, coef2]
    split
    · exact op.adjC_hasDerivAt (hval a (by simp [deps])) hs
    · exact hasDerivAt_const _ _
  | bin op a b o =>
    simp only [coef, coef2]
    have ha := hval a (by simp [deps])
    have hb := hval b (by simp [deps])
    refine HasDerivAt.add ?_ ?_
    · split
      · exact op.adjC0_hasDerivAt (vary b) ha hb (fun h => hconst b (by simp [deps]) h) hs
      · exact hasDerivAt_const _ _
    · split
      · rename_i hbv
        exact op.adjC1_hasDerivAt (vary b) (by rw [hbv]; exact hv) ha hb hs
      · exact hasDerivAt_const _ _

/-- Effect of a block on the adjoint value of a marked variable. -/
theorem FBlock.evaluateAdj_getD (blk : FBlock) (m : Bool) (h : FHeap) (v : BV)
    (hm : ((h v).marked || !m) = true) :
    (blk.toBlock.evaluateAdj m h v).adj.getD 0
      = (h v).adj.getD 0 + blk.coef (saved h) v * (h blk.out).adj.getD 0 ∧
    (blk.toBlock.evaluateAdj m h v).adj.isSome
      = ((h v).adj.isSome || (decide (v ∈ blk.deps) && (h blk.out).adj.isSome)) := by
  rw [Block.evaluateAdj_apply]
  unfold Block.adjAfter
  simp only [hm, if_true]
  cases blk with
  | un op a o =>
    simp only [toBlock, entries, coef, out, deps]
    cases ho : (h o).adj with
    | none => simp [ho]
    | some l =>
      by_cases hv : a = v
      · subst hv
        generalize (h a).adj = q
        cases q <;> simp [ho, accum] <;> rw [UOp.adjC_mul] <;> ring
      · simp [ho, hv, Ne.symm hv]
  | bin op a b o =>
    simp only [toBlock, entries, coef, out, deps]
    cases ho : (h o).adj with
    | none => simp [ho]
    | some l =>
      by_cases ha : a = v <;> by_cases hb : b = v
      · subst ha; subst hb
        generalize (h b).adj = q
        cases q <;> simp [ho, accum] <;> rw [BOp.adjC_mul, op.adjC_mul _ _ _ 1] <;> ring
      · subst ha
        generalize (h a).adj = q
        cases q <;> simp [ho, accum, hb] <;> rw [BOp.adjC_mul] <;> ring
      · subst hb
        generalize (h b).adj = q
        cases q <;> simp [ho, accum, ha] <;> rw [BOp.adjC_mul] <;> ring
      · simp [ho, ha, hb, Ne.symm ha, Ne.symm hb]

/-! ## The Hessian contributions of one block -/

/-- Adding a list of Hessian contributions. -/
noncomputable def addMany (C : List (BV × ℝ)) (g : FHeap) : FHeap :=
  C.foldl (fun g p => addHess g p.1 p.2) g

theorem addHess_apply (g : FHeap) (w : BV) (x : ℝ) (v : BV) :
    addHess g w x v = if v = w then { g v with hess := accum (g v).hess (some x) } else g v := by
  have := addHess?_eq g w (some x)
  simp only [addHess?] at this
  rw [this]
  by_cases hv : v = w
  · subst hv; simp
  · simp [hv]

@[simp] theorem addHess_tlm (g : FHeap) (w : BV) (x : ℝ) (v : BV) :
    (addHess g w x v).tlm = (g v).tlm := by rw [addHess_apply]; split <;> rfl

/-- Sum of the contributions to `v`. -/
noncomputable def contr (C : List (BV × ℝ)) (v : BV) : ℝ :=
  (C.map fun p => if p.1 = v then p.2 else 0).sum

theorem addMany_frame (C : List (BV × ℝ)) (g : FHeap) (v : BV) :
    ∃ o, addMany C g v = { g v with hess := o } ∧ o.getD 0 = (g v).hess.getD 0 + contr C v ∧
      (o.isSome = ((g v).hess.isSome || decide (v ∈ C.map Prod.fst))) := by
  unfold addMany contr
  induction C generalizing g with
  | nil => exact ⟨_, rfl, by simp, by simp⟩
  | cons p C ih =>
    obtain ⟨o, h1, h2, h3⟩ := ih (addHess g p.1 p.2)
    refine ⟨o, ?_, ?_, ?_⟩
    · rw [List.foldl_cons, h1, addHess_apply]
      split <;> rfl
    · rw [h2, addHess_apply]
      by_cases hv : p.1 = v
      · subst hv
        cases hx : (g p.1).hess <;> simp [accum] <;> ring
      · simp [hv, Ne.symm hv]
    · rw [h3, addHess_apply]
      by_cases hv : p.1 = v
      · subst hv
        cases hx : (g p.1).hess <;> simp [accum]
      · have hv' : v ≠ p.1 := fun e => hv e.symm
        have e : v ∈ (p :: C).map Prod.fst ↔ v ∈ C.map Prod.fst := by
          rw [List.map_cons, List.mem_cons, or_iff_right hv']
        rw [if_neg hv', decide_eq_decide.2 e]

open Classical in
/-- What the code contributes to the Hessian value of the variable `v`, given the Hessian value `hin` and
the adjoint value `l` of the output; `relB` says whether the second operand is marked. -/
noncomputable def FBlock.codeContr (val tl : BV → ℝ) (hin l : ℝ) (relB : Bool) (v : BV) (blk : FBlock) : ℝ :=
  match blk with
  | un .exp a _ => if a = v then Real.exp (val a) * hin else 0
  | un .log a _ => if a = v then -hin / val a / val a else 0
  | bin .mul a b _ =>
    let last := if relB then val b else val a
    (if a = v then l * tl b + hin * last else 0) + (if b = v then l * tl a + hin * last else 0)
  | b => b.coef val v * hin + l * b.coef2 val tl v

theorem FBlock.hess_list (blk : FBlock) (g : FHeap) (hin l : ℝ)
    (hh : (g blk.out).hess = some hin) (hl : (g blk.out).adj = some l)
    (htl : ∀ d ∈ blk.deps, (g d).marked = false → (g d).tlm = none) :
    ∃ C : List (BV × ℝ), blk.evaluateHessian true g = .ok (addMany C g) ∧
      (∀ p ∈ C, p.1 ∈ blk.deps) ∧
      ∀ v, (g v).marked = true →
        contr C v = blk.codeContr (saved g) (fun d => (g d).tlm.getD 0) hin l
          ((blk.deps.getLast?.map fun d => (g d).marked).getD false) v ∧
        (v ∈ blk.deps → v ∈ C.map Prod.fst) := by
  cases blk with
  | un op a o =>
    simp only [out] at hh hl
    cases op
    case neg =>
      refine ⟨[(a, -hin)], by simp [evaluateHessian, hh, addMany], by simp [deps], ?_⟩
      intro v _
      simp [contr, codeContr, coef, coef2, UOp.adjC, UOp.d2, deps]
    case exp =>
      cases hm : (g a).marked
      · refine ⟨[], by simp [evaluateHessian, evaluateHessianDefault, hh, addMany, relevant, hm] <;> rfl,
          by simp, ?_⟩
        intro v hv
        have : a ≠ v := by rintro rfl; simp [hm] at hv
        simp [contr, codeContr, this, deps, Ne.symm this]
      · refine ⟨[(a, Real.exp (saved g a) * hin)], by
          simp [evaluateHessian, evaluateHessianDefault, hh, addMany, relevant, hm], by simp [deps], ?_⟩
        intro v hv
        simp [contr, codeContr, deps]
    case log =>
      cases hm : (g a).marked
      · refine ⟨[], by simp [evaluateHessian, evaluateHessianDefault, hh, addMany, relevant, hm] <;> rfl,
          by simp, ?_⟩
        intro v hv
        have : a ≠ v := by rintro rfl; simp [hm] at hv
        simp [contr, codeContr, this, deps, Ne.symm this]
      · refine ⟨[(a, -hin / saved g a / saved g a)], by
          simp [evaluateHessian, evaluateHessianDefault, hh, addMany, relevant, hm], by simp [deps], ?_⟩
        intro v hv
        simp [contr, codeContr, deps]
  | bin op a b o =>
    simp only [out] at hh hl
    have hta := htl a (by simp [deps])
    have htb := htl b (by simp [deps])
    cases op
    case add =>
      refine ⟨(relevant g true [a, b]).map fun p => (p.1, hin), ?_, ?_, ?_⟩
      · cases hma : (g a).marked <;> cases hmb : (g b).marked <;>
          simp [evaluateHessian, evaluateHessianDefault, hh, addMany, relevant, hma, hmb] <;> rfl
      · cases hma : (g a).marked <;> cases hmb : (g b).marked <;>
          simp [relevant, hma, hmb, deps]
      · intro v hv
        by_cases ha : a = v <;> by_cases hb : b = v
        · subst ha; subst hb
          simp [relevant, hv, contr, codeContr, coef, coef2, BOp.adjC, BOp.d2a, BOp.d2b, deps]; ring
        · have hb' : v ≠ b := fun e => hb e.symm
          subst ha
          cases hmb : (g b).marked <;>
            simp [relevant, contr, codeContr, coef, coef2, BOp.adjC, BOp.d2a, BOp.d2b, deps, hv, hmb, hb, hb']
        · have ha' : v ≠ a := fun e => ha e.symm
          subst hb
          cases hma : (g a).marked <;>
            simp [relevant, contr, codeContr, coef, coef2, BOp.adjC, BOp.d2a, BOp.d2b, deps, hv, hma, ha, ha']
        · have ha' : v ≠ a := fun e => ha e.symm
          have hb' : v ≠ b := fun e => hb e.symm
          cases hma : (g a).marked <;> cases hmb : (g b).marked <;>
            simp [relevant, contr, codeContr, coef, coef2, deps, hma, hmb, ha, hb, ha', hb']
    case min =>
      refine ⟨(relevant g true [a, b]).map fun p => (p.1, BOp.adjC .min (saved g a) (saved g b) hin p.2),
        ?_, ?_, ?_⟩
      · cases hma : (g a).marked <;> cases hmb : (g b).marked <;>
          simp [evaluateHessian, evaluateHessianDefault, hh, addMany, relevant, hma, hmb] <;> rfl
      · cases hma : (g a).marked <;> cases hmb : (g b).marked <;>
          simp [relevant, hma, hmb, deps]
      · intro v hv
        have e0 := BOp.adjC_mul .min (saved g a) (saved g b) hin 0
        have e1 := BOp.adjC_mul .min (saved g a) (saved g b) hin 1
        by_cases ha : a = v <;> by_cases hb : b = v
        · subst ha; subst hb
          simp [relevant, hv, contr, codeContr, coef, coef2, BOp.d2a, BOp.d2b, deps, e0, e1]; ring
        · have hb' : v ≠ b := fun e => hb e.symm
          subst ha
          cases hmb : (g b).marked <;>
            simp [relevant, contr, codeContr, coef, coef2, BOp.d2a, BOp.d2b, deps, hv, hmb, hb, hb', e0, mul_comm]
        · have ha' : v ≠ a := fun e => ha e.symm
          subst hb
          cases hma : (g a).marked <;>
            simp [relevant, contr, codeContr, coef, coef2, BOp.d2a, BOp.d2b, deps, hv, hma, ha, ha', e1, mul_comm]
        · have ha' : v ≠ a := fun e => ha e.symm
          have hb' : v ≠ b := fun e => hb e.symm
          cases hma : (g a).marked <;> cases hmb : (g b).marked <;>
            simp [relevant, contr, codeContr, coef, coef2, deps, hma, hmb, ha, hb, ha', hb']
    case max =>
      refine ⟨(relevant g true [a, b]).map fun p => (p.1, BOp.adjC .max (saved g a) (saved g b) hin p.2),
        ?_, ?_, ?_⟩
      · cases hma : (g a).marked <;> cases hmb : (g b).marked <;>
          simp [evaluateHessian, evaluateHessianDefault, hh, addMany, relevant, hma, hmb] <;> rfl
      · cases hma : (g a).marked <;> cases hmb : (g b).marked <;>
          simp [relevant, hma, hmb, deps]
      · intro v hv
        have e0 := BOp.adjC_mul .max (saved g a) (saved g b) hin 0
        have e1 := BOp.adjC_mul .max (saved g a) (saved g b) hin 1
        by_cases ha : a = v <;> by_cases hb : b = v
        · subst ha; subst hb
          simp [relevant, hv, contr, codeContr, coef, coef2, BOp.d2a, BOp.d2b, deps, e0, e1]; ring
        · have hb' : v ≠ b := fun e => hb e.symm
          subst ha
          cases hmb : (g b).marked <;>
            simp [relevant, contr, codeContr, coef, coef2, BOp.d2a, BOp.d2b, deps, hv, hmb, hb, hb', e0, mul_comm]
        · have ha' : v ≠ a := fun e => ha e.symm
          subst hb
          cases hma : (g a).marked <;>
            simp [relevant, contr, codeContr, coef, coef2, BOp.d2a, BOp.d2b, deps, hv, hma, ha, ha', e1, mul_comm]
        · have ha' : v ≠ a := fun e => ha e.symm
          have hb' : v ≠ b := fun e => hb e.symm
          cases hma : (g a).marked <;> cases hmb : (g b).marked <;>
            simp [relevant, contr, codeContr, coef, coef2, deps, hma, hmb, ha, hb, ha', hb']
    case mul =>
      cases hma : (g a).marked <;> cases hmb : (g b).marked
      · refine ⟨[], by simp [evaluateHessian, evaluateHessianDefault, hh, addMany, relevant, hma, hmb] <;> rfl,
          by simp, ?_⟩
        intro v hv
        have ha : a ≠ v := by rintro rfl; simp [hma] at hv
        have hb : b ≠ v := by rintro rfl; simp [hmb] at hv
        simp [contr, codeContr, ha, hb, deps, Ne.symm ha, Ne.symm hb]
      · refine ⟨[(b, 0 + hin * saved g b)], by
          simp [evaluateHessian, evaluateHessianDefault, hh, addMany, relevant, hma, hmb, mulHessC] <;> rfl,
          by simp [deps], ?_⟩
        intro v hv
        have ha : a ≠ v := by rintro rfl; simp [hma] at hv
        simp [contr, codeContr, ha, deps, hmb, hta hma, Ne.symm ha]
      · refine ⟨[(a, 0 + hin * saved g a)], by
          simp [evaluateHessian, evaluateHessianDefault, hh, addMany, relevant, hma, hmb, mulHessC] <;> rfl,
          by simp [deps], ?_⟩
        intro v hv
        have hb : b ≠ v := by rintro rfl; simp [hmb] at hv
        simp [contr, codeContr, hb, deps, hmb, htb hmb, Ne.symm hb]
      · refine ⟨[(a, l * (g b).tlm.getD 0 + hin * saved g b), (b, l * (g a).tlm.getD 0 + hin * saved g b)],
          ?_, by simp [deps], ?_⟩
        · cases hxa : (g a).tlm <;> cases hxb : (g b).tlm <;>
            simp [evaluateHessian, evaluateHessianDefault, hh, hl, addMany, relevant, hma, hmb, mulHessC,
              hxa, hxb, needFloat] <;> rfl
        · intro v hv
          simp [contr, codeContr, deps, hmb]
    case sub =>
      refine ⟨[(a, hin), (b, -hin)], by simp [evaluateHessian, hh, addMany], by simp [deps], ?_⟩
      intro v _
      refine ⟨?_, by simp [deps]⟩
      simp only [contr, codeContr, coef, coef2, BOp.adjC, BOp.d2a, BOp.d2b, List.map_cons, List.map_nil,
        List.sum_cons, List.sum_nil]
      split <;> split <;> simp
    case div =>
      cases hxa : (g a).tlm with
      | none =>
        cases hxb : (g b).tlm with
        | none =>
          refine ⟨[(a, hin * (1 / saved g b)), (b, hin * (-(saved g a / saved g b ^ (2 : ℝ))))], ?_,
            by simp [deps], ?_⟩
          · simp [evaluateHessian, hh, hl, addMany, hxa, hxb, needFloat, addHess?] <;> rfl
          · intro v _
            refine ⟨?_, by simp [deps] <;> tauto⟩
            simp [contr, codeContr, coef, coef2, BOp.adjC, BOp.d2a, BOp.d2b, hxa, hxb]
            split <;> split <;> ring
        | some tb =>
          refine ⟨[(a, hin * (1 / saved g b)), (b, hin * (-(saved g a / saved g b ^ (2 : ℝ)))),
            (b, (l * ((2 * saved g a) / saved g b ^ 3)) * tb), (a, tb * -(l / saved g b ^ 2))], ?_,
            by simp [deps], ?_⟩
          · simp [evaluateHessian, hh, hl, addMany, hxa, hxb, needFloat, addHess?] <;> rfl
          · intro v _
            refine ⟨?_, by simp [deps] <;> tauto⟩
            simp [contr, codeContr, coef, coef2, BOp.adjC, BOp.d2a, BOp.d2b, hxa, hxb]
            split <;> split <;> ring
      | some ta =>
        cases hxb : (g b).tlm with
        | none =>
          refine ⟨[(a, hin * (1 / saved g b)), (b, hin * (-(saved g a / saved g b ^ (2 : ℝ)))),
            (b, ta * -(l / saved g b ^ 2))], ?_,
            by simp [deps], ?_⟩
          · simp [evaluateHessian, hh, hl, addMany, hxa, hxb, needFloat, addHess?] <;> rfl
          · intro v _
            refine ⟨?_, by simp [deps] <;> tauto⟩
            simp [contr, codeContr, coef, coef2, BOp.adjC, BOp.d2a, BOp.d2b, hxa, hxb]
            split <;> split <;> ring
        | some tb =>
          refine ⟨[(a, hin * (1 / saved g b)), (b, hin * (-(saved g a / saved g b ^ (2 : ℝ)))),
            (b, (l * ((2 * saved g a) / saved g b ^ 3)) * tb), (a, tb * -(l / saved g b ^ 2)),
            (b, ta * -(l / saved g b ^ 2))], ?_,
            by simp [deps], ?_⟩
          · simp [evaluateHessian, hh, hl, addMany, hxa, hxb, needFloat, addHess?] <;> rfl
          · intro v _
            refine ⟨?_, by simp [deps] <;> tauto⟩
            simp [contr, codeContr, coef, coef2, BOp.adjC, BOp.d2a, BOp.d2b, hxa, hxb]
            split <;> split <;> ring
    case pow =>
      cases hxa : (g a).tlm with
      | none =>
        cases hxb : (g b).tlm with
        | none =>
          refine ⟨[(a, (hin * saved g b) * saved g a ^ (saved g b - 1)),
            (b, (hin * Real.log (saved g a)) * saved g a ^ saved g b)], ?_,
            by simp [deps], ?_⟩
          · simp [evaluateHessian, hh, hl, addMany, hxa, hxb, needFloat, addHess?] <;> rfl
          · intro v _
            refine ⟨?_, by simp [deps] <;> tauto⟩
            simp [contr, codeContr, coef, coef2, BOp.adjC, BOp.d2a, BOp.d2b, hxa, hxb]
            split <;> split <;> ring
        | some tb =>
          refine ⟨[(a, (hin * saved g b) * saved g a ^ (saved g b - 1)),
            (b, ((l * (Real.log (saved g a)) ^ 2) * saved g a ^ saved g b) * tb),
            (b, (hin * Real.log (saved g a)) * saved g a ^ saved g b),
            (a, tb * (l * (saved g a ^ (saved g b - 1) * (saved g b * Real.log (saved g a) + 1))))], ?_,
            by simp [deps], ?_⟩
          · simp [evaluateHessian, hh, hl, addMany, hxa, hxb, needFloat, addHess?] <;> rfl
          · intro v _
            refine ⟨?_, by simp [deps] <;> tauto⟩
            simp [contr, codeContr, coef, coef2, BOp.adjC, BOp.d2a, BOp.d2b, hxa, hxb]
            split <;> split <;> ring
      | some ta =>
        cases hxb : (g b).tlm with
        | none =>
          refine ⟨[(a, ((l * (saved g b * (saved g b - 1))) * saved g a ^ (saved g b - 2)) * ta),
            (a, (hin * saved g b) * saved g a ^ (saved g b - 1)),
            (b, (hin * Real.log (saved g a)) * saved g a ^ saved g b),
            (b, ta * (l * (saved g a ^ (saved g b - 1) * (saved g b * Real.log (saved g a) + 1))))], ?_,
            by simp [deps], ?_⟩
          · simp [evaluateHessian, hh, hl, addMany, hxa, hxb, needFloat, addHess?] <;> rfl
          · intro v _
            refine ⟨?_, by simp [deps] <;> tauto⟩
            simp [contr, codeContr, coef, coef2, BOp.adjC, BOp.d2a, BOp.d2b, hxa, hxb]
            split <;> split <;> ring
        | some tb =>
          refine ⟨[(a, ((l * (saved g b * (saved g b - 1))) * saved g a ^ (saved g b - 2)) * ta),
            (a, (hin * saved g b) * saved g a ^ (saved g b - 1)),
            (b, ((l * (Real.log (saved g a)) ^ 2) * saved g a ^ saved g b) * tb),
            (b, (hin * Real.log (saved g a)) * saved g a ^ saved g b),
            (a, tb * (l * (saved g a ^ (saved g b - 1) * (saved g b * Real.log (saved g a) + 1)))),
            (b, ta * (l * (saved g a ^ (saved g b - 1) * (saved g b * Real.log (saved g a) + 1))))], ?_,
            by simp [deps], ?_⟩
          · simp [evaluateHessian, hh, hl, addMany, hxa, hxb, needFloat, addHess?] <;> rfl
          · intro v _
            refine ⟨?_, by simp [deps] <;> tauto⟩
            simp [contr, codeContr, coef, coef2, BOp.adjC, BOp.d2a, BOp.d2b, hxa, hxb]
            split <;> split <;> ring

/-- The condition under which the Hessian formulas of `ExpBlock`, `LogBlock` and `MulBlock` as
implemented give the right contribution.  `lam` is the adjoint value of the output and `lamDot` its
directional derivative.  The other blocks are right unconditionally. -/
def FBlock.NoDefect (val tl : BV → ℝ) (lam lamDot : ℝ) : FBlock → Prop
  | un .exp a _ => lam * tl a = 0
  | un .log a _ => lam * tl a = lamDot * (1 + val a)
  | bin .mul a b _ => lamDot * (val a - val b) = 0
  | _ => True

theorem FBlock.codeContr_of_noDefect (blk : FBlock) (val tl : BV → ℝ) (lam lamDot : ℝ)
    (vary : BV → Prop) (hs : blk.Smooth2 val vary)
    (hnd : blk.NoDefect val tl lam lamDot) (relB : Bool) (v : BV) :
    blk.codeContr val tl lamDot lam relB v = blk.coef val v * lamDot + lam * blk.coef2 val tl v := by
  cases blk with
  | un op a o =>
    cases op
    case neg => rfl
    case exp =>
      have hnd : lam * tl a = 0 := hnd
      simp only [codeContr, coef, coef2, UOp.adjC, UOp.d2]
      split
      · linear_combination -Real.exp (val a) * hnd
      · ring
    case log =>
      have hnd : lam * tl a = lamDot * (1 + val a) := hnd
      have hx : 0 < val a := hs
      simp only [codeContr, coef, coef2, UOp.adjC, UOp.d2]
      split
      · field_simp
        linear_combination hnd
      · ring
  | bin op a b o =>
    cases op
    case mul =>
      have hnd : lamDot * (val a - val b) = 0 := hnd
      simp only [codeContr, coef, coef2, BOp.adjC, BOp.d2a, BOp.d2b, if_true, one_ne_zero, if_false,
        one_mul, zero_ne_one]
      cases relB <;> simp only [if_true, Bool.false_eq_true, if_false] <;> split <;> split <;>
        first | ring1 | linear_combination hnd | linear_combination -hnd
    all_goals rfl

theorem FBlock.codeContr_congr (blk : FBlock) {val val' tl tl' : BV → ℝ} {hin l : ℝ} {relB : Bool}
    {v : BV} (hv : ∀ d, val d = val' d) (ht : ∀ d ∈ blk.deps, tl d = tl' d) :
    blk.codeContr val tl hin l relB v = blk.codeContr val' tl' hin l relB v := by
  obtain rfl : val = val' := funext hv
  cases blk with
  | un op a o =>
    cases op <;> simp [codeContr, coef2, ht a (by simp [deps])]
  | bin op a b o =>
    cases op <;> simp [codeContr, coef2, ht a (by simp [deps]), ht b (by simp [deps])]

theorem FBlock.evaluateHessian_of_none (blk : FBlock) (m : Bool) (g : FHeap)
    (hh : (g blk.out).hess = none) : blk.evaluateHessian m g = .ok g := by
  cases blk with
  | un op a o => cases op <;> simp_all [evaluateHessian, evaluateHessianDefault, out]
  | bin op a b o => cases op <;> simp_all [evaluateHessian, evaluateHessianDefault, out]

end Pyadjoint
