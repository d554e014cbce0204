import Verif.Props.Gradient
import Verif.Props.Optimize

/-!
# `min` and `max` follow the tie rule (C46)

Python's `min(a, b)` and `max(a, b)` return `a` at a tie.  The specification: which operand is selected, and the *branch program*
at a point, in which every `min` and `max` is replaced by the operand it selects at that point.
-/

namespace Pyadjoint

variable {V T A : Type*}

/-- The position of the operand that `min` (`isMin`) or `max` selects; the first one at a tie. -/
noncomputable def selected (isMin : Bool) (a b : ℝ) : Nat :=
  if isMin then (if a ≤ b then 0 else 1) else (if b ≤ a then 0 else 1)

/-- **C46, values.** The result is one of the operands, the one selected, and no operand is smaller (larger). -/
theorem min_max_value (a b : ℝ) :
    BOp.val .min a b = [a, b].getD (selected true a b) 0 ∧ BOp.val .max a b = [a, b].getD (selected false a b) 0 ∧
    BOp.val .min a b ≤ a ∧ BOp.val .min a b ≤ b ∧ a ≤ BOp.val .max a b ∧ b ≤ BOp.val .max a b := by
  simp only [BOp.val, selected]
  refine ⟨?_, ?_, ?_, ?_, ?_, ?_⟩
  · by_cases h : a ≤ b
    · simp [h, not_lt.2 h]
    · simp [h, not_le.1 h]
  · by_cases h : b ≤ a
    · simp [h, not_lt.2 h]
    · simp [h, not_le.1 h]
  all_goals split <;> first | exact le_refl _ | exact le_of_lt ‹_› | exact not_lt.1 ‹_›

/-- A block that passes on operand number `i` of two. -/
noncomputable def selectBlock (a b o : BV) (i : Nat) : Block ℝ ℝ ℝ :=
  { deps := [a, b], outs := [o]
    recomputeC := fun inputs _ => (inputs[0]?).bind fun x => (inputs[1]?).map fun y => if i = 0 then x else y
    adjC := fun _ adjIn idx => (adjIn[0]?).join.map fun l => if idx = i then l else 0
    tlmC := fun _ tlmIn _ => (tlmIn[i]?).join
    hessC := fun _ _ _ _ _ => none }

/-- The block in the branch program for given values. -/
noncomputable def FBlock.branch (val : BV → ℝ) : FBlock → Block ℝ ℝ ℝ
  | .bin .min a b o => selectBlock a b o (selected true (val a) (val b))
  | .bin .max a b o => selectBlock a b o (selected false (val a) (val b))
  | b => b.toBlock

/-- The branch program. -/
noncomputable def FTape.branch (t : FTape) (val : BV → ℝ) : Blocks ℝ ℝ ℝ := t.map (FBlock.branch val)

/-- `min` or `max`. -/
def FBlock.IsSelect : FBlock → Prop
  | .bin .min _ _ _ | .bin .max _ _ _ => True
  | _ => False

theorem FBlock.branch_deps (val : BV → ℝ) (b : FBlock) : (b.branch val).deps = b.toBlock.deps := by
  rcases b with ⟨op, a, o⟩ | ⟨op, a, b, o⟩
  · rfl
  · cases op <;> rfl

theorem FBlock.branch_outs (val : BV → ℝ) (b : FBlock) : (b.branch val).outs = b.toBlock.outs := by
  rcases b with ⟨op, a, o⟩ | ⟨op, a, b, o⟩
  · rfl
  · cases op <;> rfl

/-! ## Tapes of the same shape -/

/-- Dependencies and outputs. -/
def shape (bs : Blocks V T A) : List (List BV × List BV) := bs.map fun b => (b.deps, b.outs)

theorem mem_of_shape {bs bs' : Blocks V T A} (h : shape bs = shape bs') {b : Block V T A} (hb : b ∈ bs) :
    ∃ b' ∈ bs', b'.deps = b.deps ∧ b'.outs = b.outs := by
  have : (b.deps, b.outs) ∈ shape bs' := h ▸ List.mem_map_of_mem hb
  obtain ⟨b', hb', he⟩ := List.mem_map.1 this
  exact ⟨b', hb', congrArg Prod.fst he, congrArg Prod.snd he⟩

theorem WF.of_shape {bs bs' : Blocks V T A} (h : shape bs = shape bs') (wf : WF bs) : WF bs' := by
  refine ⟨fun b hb => ?_, fun b hb => ?_, ?_⟩
  · obtain ⟨b', hb', hd, ho⟩ := mem_of_shape h.symm hb
    rw [← ho]; exact wf.nodup b' hb'
  · obtain ⟨b', hb', hd, ho⟩ := mem_of_shape h.symm hb
    rw [← ho, ← hd]; exact wf.self b' hb'
  · have := wf.later
    have h1 : (shape bs).Pairwise fun p p' => (∀ d ∈ p.1, d ∉ p'.2) ∧ (∀ o ∈ p.2, o ∉ p'.2) :=
      List.pairwise_map.2 this
    rw [h] at h1
    exact List.pairwise_map.1 h1

theorem Reach.of_shape {bs bs' : Blocks V T A} (h : shape bs = shape bs') {S : BV → Prop} {v : BV}
    (hr : Reach bs S v) : Reach bs' S v := by
  induction hr with
  | base hv => exact .base hv
  | step hb hd _ ho ih =>
    obtain ⟨b', hb', hd', ho'⟩ := mem_of_shape h hb
    exact .step hb' (hd' ▸ hd) ih (ho' ▸ ho)

theorem OnTape.of_shape {bs bs' : Blocks V T A} (h : shape bs = shape bs') {v : BV} (hv : OnTape bs v) :
    OnTape bs' v := by
  obtain ⟨b, hb, hv⟩ := hv
  obtain ⟨b', hb', hd, ho⟩ := mem_of_shape h hb
  exact ⟨b', hb', by rw [hd, ho]; exact hv⟩

theorem findRelevantNodes_shape {bs bs' : Blocks V T A} (h : shape bs = shape bs') (cs : List BV) :
    findRelevantNodes bs cs = findRelevantNodes bs' cs := by
  have key : ∀ bs : Blocks V T A, findRelevantNodes bs cs =
      (shape bs).foldl (fun nodes p => if p.1.any (· ∈ nodes) then nodes ++ p.2 else nodes) cs := by
    intro bs; unfold findRelevantNodes shape; rw [List.foldl_map]
  rw [key, key, h]

theorem resetVariables_shape {bs bs' : Blocks V T A} (h : shape bs = shape bs') (r : ResetType)
    (hp : Heap V T A) : Pyadjoint.resetVariables bs r hp = Pyadjoint.resetVariables bs' r hp := by
  have key : ∀ bs : Blocks V T A, Pyadjoint.resetVariables bs r hp =
      (shape bs).reverse.foldl (fun hp p =>
        (p.1 ++ p.2).foldl (fun hp v => Function.update hp v ((hp v).reset r)) hp) hp := by
    intro bs; unfold Pyadjoint.resetVariables shape; rw [← List.map_reverse, List.foldl_map]; rfl
  rw [key, key, h]

/-- Blocks that agree on adjoints at given values. -/
def SameAdj (val : BV → V) (b b' : Block V T A) : Prop :=
  b'.deps = b.deps ∧ b'.outs = b.outs ∧
    ∀ adjIn idx, adjIn.length = b.outs.length → b'.adjC (b.deps.map val) adjIn idx = b.adjC (b.deps.map val) adjIn idx

theorem SameAdj.evaluateAdj [Add A] {val : BV → V} {b b' : Block V T A} (h : SameAdj val b b') (m : Bool)
    (hp : Heap V T A) (hv : ∀ v, saved hp v = val v) : b'.evaluateAdj m hp = b.evaluateAdj m hp := by
  obtain ⟨hd, ho, ha⟩ := h
  unfold Block.evaluateAdj
  rw [hd, ho]
  have e : b.deps.map (saved hp) = b.deps.map val := List.map_congr_left fun d _ => hv d
  simp only [e]
  have : ∀ idx, b'.adjC (b.deps.map val) (b.outs.map fun o => (hp o).adj) idx =
      b.adjC (b.deps.map val) (b.outs.map fun o => (hp o).adj) idx := fun idx => ha _ _ (by simp)
  simp only [this]

theorem evaluateAdj_same [Add A] {val : BV → V} {bs bs' : Blocks V T A} (h : List.Forall₂ (SameAdj val) bs bs')
    (m : Bool) (hp : Heap V T A) (hv : ∀ v, saved hp v = val v) :
    Pyadjoint.evaluateAdj bs' m hp = Pyadjoint.evaluateAdj bs m hp := by
  induction h with
  | nil => rfl
  | @cons b b' bs bs' h1 _ ih =>
    rw [evaluateAdj_cons, evaluateAdj_cons, ih]
    exact h1.evaluateAdj m _ fun v => by rw [saved_evaluateAdj]; exact hv v

theorem shape_of_same {val : BV → V} {bs bs' : Blocks V T A} (h : List.Forall₂ (SameAdj val) bs bs') :
    shape bs = shape bs' := by
  induction h with
  | nil => rfl
  | cons h1 _ ih => simp only [shape, List.map_cons] at ih ⊢; rw [ih, h1.1, h1.2.1]

theorem computeGradient_same [Add A] [Zero A] {val : BV → V} {bs bs' : Blocks V T A}
    (h : List.Forall₂ (SameAdj val) bs bs') (J : BV) (cs : List BV) (seed : A) (hp : Heap V T A)
    (hv : ∀ v, saved hp v = val v) :
    computeGradient bs' J cs seed hp = computeGradient bs J cs seed hp := by
  have hs := shape_of_same h
  have : computeGradientState bs' J cs seed hp = computeGradientState bs J cs seed hp := by
    unfold computeGradientState markedAdjoint
    rw [findRelevantNodes_shape hs, resetVariables_shape hs]
    simp only []
    rw [evaluateAdj_same h]
    intro v
    rw [saved_markControls, saved_markAll, saved_update_adj, saved_resetVariables]
    exact hv v
  unfold computeGradient
  rw [this]

/-! ## The branch program -/

theorem FBlock.branch_same (val : BV → ℝ) (b : FBlock) : SameAdj val b.toBlock (b.branch val) := by
  refine ⟨b.branch_deps val, b.branch_outs val, ?_⟩
  rcases b with ⟨op, a, o⟩ | ⟨op, a, b, o⟩
  · intro _ _ _; rfl
  · cases op with
    | add | sub | mul | div | pow => intro _ _ _; rfl
    | min =>
      intro adjIn idx hl
      match adjIn, hl with
      | [l], _ => cases l <;> simp [FBlock.branch, selectBlock, FBlock.toBlock, BOp.adjC, selected]
    | max =>
      intro adjIn idx hl
      match adjIn, hl with
      | [l], _ => cases l <;> simp [FBlock.branch, selectBlock, FBlock.toBlock, BOp.adjC, selected]

theorem FTape.branch_same (val : BV → ℝ) (t : FTape) :
    List.Forall₂ (SameAdj val) t.blocks (FTape.branch t val) := by
  induction t with
  | nil => exact .nil
  | cons b t ih => exact .cons (b.branch_same val) ih

theorem FBlock.branch_recompute (val : BV → ℝ) (b : FBlock) (i : Nat) :
    (b.branch val).recomputeC (b.toBlock.deps.map val) i = b.toBlock.recomputeC (b.toBlock.deps.map val) i := by
  rcases b with ⟨op, a, o⟩ | ⟨op, a, b, o⟩
  · rfl
  · cases op with
    | add | sub | mul | div | pow => rfl
    | min =>
      simp only [FBlock.branch, selectBlock, FBlock.toBlock, selected, BOp.val]
      by_cases h : val a ≤ val b
      · simp [h, not_lt.2 h]
      · simp [h, not_le.1 h]
    | max =>
      simp only [FBlock.branch, selectBlock, FBlock.toBlock, selected, BOp.val]
      by_cases h : val b ≤ val a
      · simp [h, not_lt.2 h]
      · simp [h, not_le.1 h]

/-- The branch program has, at its point, the values of the program. -/
theorem FTape.branch_replay (t : FTape) (wf : WF t.blocks) (cs : List BV) (xs : List ℝ) (h : FHeap)
    (hfl : ∀ v, (h v).isControl = false) (v : BV) :
    saved (rfEval (FTape.branch t (saved (rfEval t.blocks cs xs h))) cs xs h) v =
      saved (rfEval t.blocks cs xs h) v := by
  set val := saved (rfEval t.blocks cs xs h) with hval
  have hs := shape_of_same (FTape.branch_same val t)
  have wf' := WF.of_shape hs wf
  refine tape_induction wf (P := fun v => saved (rfEval (FTape.branch t val) cs xs h) v = val v) ?_ ?_ v
  · intro v hv
    by_cases hc : v ∈ cs
    · rw [hval]
      unfold saved
      rw [rfEval_control_indep _ t.blocks cs xs h v hc]
    · rw [hval]
      unfold saved
      rw [rfEval_leaf _ cs xs h v hc hv, rfEval_leaf _ cs xs h v hc]
      intro b' hb'
      obtain ⟨b, hb, hd, ho⟩ := mem_of_shape hs.symm hb'
      rw [← ho]; exact hv b hb
  · intro b hb hdeps o ho
    obtain ⟨fb, hfb, rfl⟩ := List.mem_map.1 hb
    by_cases hc : o ∈ cs
    · rw [hval]
      unfold saved
      rw [rfEval_control_indep _ t.blocks cs xs h o hc]
    · have houts : fb.toBlock.outs = [o] := by
        cases fb <;> simp [FBlock.toBlock] at ho ⊢ <;> exact ho.symm
      have hb' : fb.branch val ∈ FTape.branch t val := List.mem_map_of_mem hfb
      have houts' : (fb.branch val).outs = [o] := by rw [FBlock.branch_outs, houts]
      have e1 := rfEval_saved_block wf cs xs h hfl fb.toBlock hb (by simpa [houts] using hc) 0 (by simp [houts])
      have e2 := rfEval_saved_block wf' cs xs h hfl (fb.branch val) hb' (by simpa [houts'] using hc) 0
        (by simp [houts'])
      have g1 : fb.toBlock.outs[0]'(by simp [houts]) = o := by simp [houts]
      have g2 : (fb.branch val).outs[0]'(by simp [houts']) = o := by simp [houts']
      rw [g1] at e1
      rw [g2] at e2
      rw [e2]
      have e3 : (fb.branch val).deps.map (saved (rfEval (FTape.branch t val) cs xs h)) = fb.toBlock.deps.map val := by
        rw [FBlock.branch_deps]
        exact List.map_congr_left fun d hd => hdeps d hd
      rw [e3, FBlock.branch_recompute, ← e1]

theorem selectBlock_correct (a b o : BV) (i : Nat) (hi : i = 0 ∨ i = 1) (val : BV → ℝ) (vary : BV → Prop) :
    CorrectAdjoint mulFunctional (selectBlock a b o i) (fun j => val (selectBlock a b o i).deps[j])
      (fun j => vary (selectBlock a b o i).deps[j]) := by
  refine ⟨fun u k => ?_, fun _ j => (if (j : Nat) = i then (1 : ℝ) else 0) • ContinuousLinearMap.id ℝ ℝ, fun k => ?_, ?_⟩
  · change Fin 2 → ℝ at u
    change (((List.ofFn u)[0]?).bind fun x => ((List.ofFn u)[1]?).map fun y => if i = 0 then x else y).isSome
    simp
  · have e : (fun u : Fin 2 → ℝ => (((List.ofFn u)[0]?).bind fun x => ((List.ofFn u)[1]?).map fun y =>
        if i = 0 then x else y).getD 0) = fun u : Fin 2 → ℝ => if i = 0 then u 0 else u 1 := by funext u; simp
    change HasFDerivWithinAt (fun u : Fin 2 → ℝ => (((List.ofFn u)[0]?).bind fun x => ((List.ofFn u)[1]?).map fun y =>
        if i = 0 then x else y).getD 0) (∑ j : Fin 2, ((if (j : Nat) = i then (1 : ℝ) else 0) •
          ContinuousLinearMap.id ℝ ℝ).comp (ContinuousLinearMap.proj (R := ℝ) (φ := fun _ : Fin 2 => ℝ) j)) _ _
    rw [e]
    rcases hi with rfl | rfl
    · have h0 := (ContinuousLinearMap.proj (R := ℝ) (φ := fun _ : Fin 2 => ℝ) 0).hasFDerivWithinAt
        (s := {u : Fin 2 → ℝ | ∀ j : Fin 2, ¬ vary [a, b][j] → u j = val [a, b][j]})
        (x := fun j : Fin 2 => val [a, b][j])
      refine HasFDerivWithinAt.congr_fderiv h0 ?_
      ext y <;> simp
    · have h0 := (ContinuousLinearMap.proj (R := ℝ) (φ := fun _ : Fin 2 => ℝ) 1).hasFDerivWithinAt
        (s := {u : Fin 2 → ℝ | ∀ j : Fin 2, ¬ vary [a, b][j] → u j = val [a, b][j]})
        (x := fun j : Fin 2 => val [a, b][j])
      refine HasFDerivWithinAt.congr_fderiv h0 ?_
      ext y <;> simp
  · intro lam hlam j _
    change Fin 1 → Option ℝ at lam
    change Fin 2 at j
    obtain ⟨k, hk⟩ := hlam
    change Fin 1 at k
    have hk0 : k = 0 := Subsingleton.elim _ _
    obtain ⟨l, hl⟩ := Option.ne_none_iff_exists'.1 hk
    rw [hk0] at hl
    change optFunctional mulFunctional (((List.ofFn lam)[0]?).join.map fun l => if (j : Nat) = i then l else 0)
      = ∑ i : Fin 1, _
    ext
    simp [hl, optFunctional]
    split <;> simp

/-- **C46, derivatives.** For every tape and every point, ties included, at which the operations other than `min` and `max` are
differentiable: the gradient is the exact gradient of the branch program at that point, in which every `min` and `max` is
replaced by the operand selected there (the first one at a tie), and the branch program has the same value there. -/
theorem min_max_gradient (t : FTape) (wf : WF t.blocks) (J : BV) (cs : List BV)
    (hnd : cs.Nodup) (h : FHeap) (hfl : ∀ v, (h v).isControl = false)
    (hind : IndependentControls t.blocks cs) (scale adjInput : ℝ) (x₀ : Fin cs.length → ℝ)
    (hsmooth : ∀ b ∈ t, ¬ b.IsSelect → (∃ d ∈ b.deps, Reach t.blocks (· ∈ cs) d) →
      b.Smooth (saved (rfEval t.blocks cs (List.ofFn x₀) h)) (Reach t.blocks (· ∈ cs)))
    (hon : ∀ c ∈ cs, OnTape t.blocks c ∨ c = J ∨ (h c).adj = none)
    (y : ℝ) (h₁ : FHeap) (hcall : rfCall t.blocks J cs scale (List.ofFn x₀) h = some (y, h₁)) :
    let branch := FTape.branch t (saved h₁)
    ∃ grad : Fin cs.length → ℝ,
      (rfDerivative t.blocks J cs scale adjInput h₁).1 = List.ofFn grad ∧
      saved (rfEval branch cs (List.ofFn x₀) h) J * scale = y ∧
      HasFDerivAt (fun x => adjInput * (saved (rfEval branch cs (List.ofFn x) h) J * scale))
        (∑ i, grad i • (ContinuousLinearMap.proj i : (Fin cs.length → ℝ) →L[ℝ] ℝ)) x₀ := by
  intro branch
  have hh : h₁ = rfEval t.blocks cs (List.ofFn x₀) h ∧ saved (rfEval t.blocks cs (List.ofFn x₀) h) J * scale = y := by
    simp [rfCall] at hcall; exact ⟨hcall.2.symm, hcall.1⟩
  have hb : branch = FTape.branch t (saved (rfEval t.blocks cs (List.ofFn x₀) h)) := by
    show FTape.branch t (saved h₁) = _
    rw [hh.1]
  set val := saved (rfEval t.blocks cs (List.ofFn x₀) h) with hval
  have hs : shape t.blocks = shape branch := by rw [hb]; exact shape_of_same (FTape.branch_same val t)
  have wf' : WF branch := WF.of_shape hs wf
  have hrep : ∀ v, saved (rfEval branch cs (List.ofFn x₀) h) v = val v := fun v => by
    rw [hb]; exact FTape.branch_replay t wf cs _ h hfl v
  obtain ⟨grad, hg, hd⟩ := gradient_exact (bs := branch) wf' J cs hnd h hfl (by
      intro c hc b' hb' ho d hd hr
      obtain ⟨b, hbm, hd', ho'⟩ := mem_of_shape hs.symm hb'
      exact hind c hc b hbm (by rw [ho']; exact ho) d (by rw [hd']; exact hd) (Reach.of_shape hs.symm hr))
    x₀ mulFunctional (adjInput * scale) (by
      intro b' hb' hdep
      rw [hb] at hb'
      obtain ⟨fb, hfb, rfl⟩ := List.mem_map.1 hb'
      have hR : (Reach branch fun x => x ∈ cs) = Reach t.blocks fun x => x ∈ cs := by
        funext v; exact propext ⟨Reach.of_shape hs.symm, Reach.of_shape hs⟩
      have hS : saved (rfEval branch cs (List.ofFn x₀) h) = val := funext hrep
      rw [hR, hS]
      rw [hR] at hdep
      by_cases hsel : fb.IsSelect
      · rcases fb with ⟨op, a, o⟩ | ⟨op, a, b, o⟩
        · exact absurd hsel id
        · have hi : ∀ m x y, selected m x y = 0 ∨ selected m x y = 1 := by
            intro m x y; unfold selected; split <;> split <;> simp
          cases op with
          | min => exact selectBlock_correct a b o _ (hi ..) val _
          | max => exact selectBlock_correct a b o _ (hi ..) val _
          | _ => exact absurd hsel id
      · have hbr : fb.branch val = fb.toBlock := by
          rcases fb with ⟨op, a, o⟩ | ⟨op, a, b, o⟩
          · rfl
          · cases op <;> first | rfl | exact absurd trivial hsel
        rw [hbr] at hdep ⊢
        apply FBlock.correctAdjoint fb
        apply hsmooth fb hfb hsel
        cases fb <;> exact hdep)
    (fun c hc => by
      rcases hon c hc with h1 | h1
      · exact Or.inl (OnTape.of_shape hs h1)
      · exact Or.inr h1)
  refine ⟨grad, ?_, by rw [hrep]; exact hh.2, ?_⟩
  · rw [← hg]
    show (computeGradient t.blocks J cs (adjInput * scale) h₁).1 = _
    rw [hh.1, ← computeGradient_same (FTape.branch_same val t) J cs _ _ (fun v => rfl), ← hb]
    refine gradient_of_saved wf' J cs _ _ _ (fun v => (hrep v).symm ▸ rfl) fun c hc => ?_
    refine Or.inr (Or.inr ?_)
    obtain ⟨k, hk⟩ := rfEval_frame t.blocks cs (List.ofFn x₀) h c (fun c _ => hfl c)
    obtain ⟨k', hk'⟩ := rfEval_frame branch cs (List.ofFn x₀) h c (fun c _ => hfl c)
    rw [hk, hk']
  · refine (hd.congr_fderiv ?_).congr_of_eventuallyEq (Filter.Eventually.of_forall fun x => ?_)
    · ext x
      simp
    · simp only [mulFunctional_apply]
      ring

/-- A tie: `J = min(x, y)` at `x = y`. -/
example (x : ℝ) : selected true x x = 0 ∧ selected false x x = 0 := by simp [selected]

/-- Away from ties nothing is selected arbitrarily: the branch program agrees with the program in a neighbourhood of the point,
for one block. -/
theorem select_locally (x y : ℝ) (hne : x ≠ y) :
    (∀ᶠ p in nhds (x, y), BOp.val .min p.1 p.2 = [p.1, p.2].getD (selected true x y) 0) ∧
    (∀ᶠ p in nhds (x, y), BOp.val .max p.1 p.2 = [p.1, p.2].getD (selected false x y) 0) := by
  have key : ∀ {x y : ℝ}, x < y → ∀ᶠ p in nhds (x, y), p.1 < p.2 := fun h =>
    (isOpen_lt continuous_fst continuous_snd).mem_nhds h
  have key' : ∀ {x y : ℝ}, y < x → ∀ᶠ p in nhds (x, y), p.2 < p.1 := fun h =>
    (isOpen_lt continuous_snd continuous_fst).mem_nhds h
  rcases lt_or_gt_of_ne hne with h | h
  · constructor
    · filter_upwards [key h] with p hp
      simp [BOp.val, selected, h.le, not_lt.2 hp.le]
    · filter_upwards [key h] with p hp
      simp [BOp.val, selected, not_le.2 h, hp]
  · constructor
    · filter_upwards [key' h] with p hp
      simp [BOp.val, selected, not_le.2 h, hp]
    · filter_upwards [key' h] with p hp
      simp [BOp.val, selected, h.le, not_lt.2 hp.le]

/-- The hypotheses hold at a tie: `J = min(x, y) * y`. -/
example (x₀ : Fin 2 → ℝ) : let t : FTape := [.bin .min 0 1 2, .bin .mul 2 1 3]
    WF t.blocks ∧ IndependentControls t.blocks [0, 1] ∧
    (∀ b ∈ t, ¬ b.IsSelect → (∃ d ∈ b.deps, Reach t.blocks (· ∈ [0, 1]) d) →
      b.Smooth (saved (rfEval t.blocks [0, 1] (List.ofFn x₀) exFHeap)) (Reach t.blocks (· ∈ [0, 1]))) := by
  intro t
  refine ⟨⟨?_, ?_, ?_⟩, ?_, ?_⟩
  · simp [t, FTape.blocks, FBlock.toBlock]
  · simp [t, FTape.blocks, FBlock.toBlock]
  · simp [t, FTape.blocks, FBlock.toBlock]
  · intro c hc b hb ho
    simp only [FTape.blocks, t, List.map_cons, List.map_nil, List.mem_cons, List.not_mem_nil, or_false] at hb hc
    rcases hb with rfl | rfl <;> rcases hc with rfl | rfl <;> simp [FBlock.toBlock] at ho
  · intro b hb hns _
    simp only [t, List.mem_cons, List.not_mem_nil, or_false] at hb
    rcases hb with rfl | rfl
    · exact absurd trivial hns
    · trivial

end Pyadjoint
