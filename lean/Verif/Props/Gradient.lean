import Verif.Proofs.GradientExact
import Verif.Proofs.FloatCalc
import Verif.Props.Adjoint

/-!
# C02: the gradient is the true derivative
-/

namespace Pyadjoint

variable {V T A : Type*}

/-- No control is computed from a control. -/
def IndependentControls (bs : Blocks V T A) (cs : List BV) : Prop :=
  ∀ c ∈ cs, ∀ b ∈ bs, c ∈ b.outs → ∀ d ∈ b.deps, ¬ Reach bs (· ∈ cs) d

/-- **C02 for arbitrary blocks.** `rf(x₀)` followed by `rf.derivative(adj_input = seed)` on a tape all of
whose relevant blocks are correctly implemented at the point: the returned values are the components
of the Fréchet derivative of `x ↦ ⟨seed, rf(x)⟩` at `x₀`. -/
theorem gradient_exact [NormedAddCommGroup V] [NormedSpace ℝ V] [AddCommMonoid A]
    {bs : Blocks V T A} (wf : WF bs) (J : BV) (cs : List BV) (hnd : cs.Nodup) (h : Heap V T A)
    (hfl : ∀ v, (h v).isControl = false) (hind : IndependentControls bs cs)
    (x₀ : Fin cs.length → V) (ι : A →+ (V →L[ℝ] ℝ)) (seed : A)
    (hcorrect : ∀ b ∈ bs, (∃ d ∈ b.deps, Reach bs (· ∈ cs) d) →
      CorrectAdjoint ι b (fun j => saved (rfEval bs cs (List.ofFn x₀) h) b.deps[j])
        (fun j => Reach bs (· ∈ cs) b.deps[j]))
    (hon : ∀ c ∈ cs, OnTape bs c ∨ c = J ∨ (h c).adj = none) :
    ∃ grad : Fin cs.length → A,
      (computeGradient bs J cs seed (rfEval bs cs (List.ofFn x₀) h)).1 = List.ofFn grad ∧
      HasFDerivAt (fun x : Fin cs.length → V => ι seed (saved (rfEval bs cs (List.ofFn x) h) J))
        (∑ i, (ι (grad i)).comp (ContinuousLinearMap.proj i)) x₀ := by
  refine ⟨fun i => getDerivative (computeGradientState bs J cs seed
    (rfEval bs cs (List.ofFn x₀) h)) cs[i], ?_, ?_⟩
  · unfold computeGradient
    exact map_eq_ofFn _ _
  · refine gradient_exact_aux wf J cs hnd h hfl x₀ ι seed ?_ hcorrect _ (fun v => rfl) ?_
    · intro b hb ⟨d, hd, hr⟩ o ho hc
      exact hind o hc b hb ho d hd hr
    · intro c hc
      rcases hon c hc with h' | h' | h'
      · exact Or.inl h'
      · exact Or.inr (Or.inl h')
      · refine Or.inr (Or.inr ?_)
        obtain ⟨k, hk⟩ := rfEval_frame bs cs (List.ofFn x₀) h c (fun c _ => hfl c)
        rw [hk]; exact h'

/-- The value returned by `rf(x)`, for `x` of the right length. -/
noncomputable def rfValue (t : FTape) (J : BV) (cs : List BV) (scale : ℝ) (h : FHeap)
    (x : Fin cs.length → ℝ) : ℝ :=
  ((rfCall t.blocks J cs scale (List.ofFn x) h).map Prod.fst).getD 0

theorem rfValue_eq (t : FTape) (J : BV) (cs : List BV) (scale : ℝ) (h : FHeap)
    (x : Fin cs.length → ℝ) :
    rfValue t J cs scale h x = saved (rfEval t.blocks cs (List.ofFn x) h) J * scale := by
  simp [rfValue, rfCall]

/-- **C02.** For every `AdjFloat` tape, functional, control list without repetition and point `x₀`: if
no control is computed from another, and every operation that depends on a control is
differentiable at the values it is applied to, then `rf(x₀)` followed by `rf.derivative(adj_input)`
returns the numbers `gᵢ` for which `Σ gᵢ dxᵢ` is the Fréchet derivative of `adj_input · rf` at `x₀`,
whatever was computed before (the heap `h` is arbitrary except that no control marking is left,
which `C21` shows, and that a control that is not on the tape carries no adjoint value, see C43). -/
theorem gradient_exact_adjfloat (t : FTape) (wf : WF t.blocks) (J : BV) (cs : List BV)
    (hnd : cs.Nodup) (h : FHeap) (hfl : ∀ v, (h v).isControl = false)
    (hind : IndependentControls t.blocks cs) (scale adjInput : ℝ) (x₀ : Fin cs.length → ℝ)
    (hsmooth : ∀ b ∈ t, (∃ d ∈ b.deps, Reach t.blocks (· ∈ cs) d) →
      b.Smooth (saved (rfEval t.blocks cs (List.ofFn x₀) h)) (Reach t.blocks (· ∈ cs)))
    (hon : ∀ c ∈ cs, OnTape t.blocks c ∨ c = J ∨ (h c).adj = none)
    (y : ℝ) (h₁ : FHeap) (hcall : rfCall t.blocks J cs scale (List.ofFn x₀) h = some (y, h₁)) :
    ∃ grad : Fin cs.length → ℝ,
      (rfDerivative t.blocks J cs scale adjInput h₁).1 = List.ofFn grad ∧
      HasFDerivAt (fun x => adjInput * rfValue t J cs scale h x)
        (∑ i, grad i • (ContinuousLinearMap.proj i : (Fin cs.length → ℝ) →L[ℝ] ℝ)) x₀ := by
  have hh : h₁ = rfEval t.blocks cs (List.ofFn x₀) h := by
    simp [rfCall] at hcall; exact hcall.2.symm
  obtain ⟨grad, hg, hd⟩ := gradient_exact wf J cs hnd h hfl hind x₀ mulFunctional
    (adjInput * scale) (by
      intro b hb hdep
      obtain ⟨fb, hfb, rfl⟩ := List.mem_map.1 hb
      apply FBlock.correctAdjoint fb
      apply hsmooth fb hfb
      cases fb <;> exact hdep) hon
  refine ⟨grad, by rw [hh]; exact hg, ?_⟩
  refine (hd.congr_fderiv ?_).congr_of_eventuallyEq (Filter.Eventually.of_forall fun x => ?_)
  · ext x
    simp
  · simp only [rfValue_eq, mulFunctional_apply]
    ring

/-- `v₂ = v₀ * v₁ ; v₃ = exp v₂ ; v₄ = v₃ + v₀` (example data). -/
def exF : FTape := [.bin .mul 0 1 2, .un .exp 2 3, .bin .add 3 0 4]

/-- Heap for `exF` (example data). -/
noncomputable def exFHeap : FHeap := fun v => { output := v }

theorem exF_wf : WF exF.blocks := by
  refine ⟨?_, ?_, ?_⟩
  · intro b hb
    simp only [FTape.blocks, exF, List.map_cons, List.map_nil, List.mem_cons, List.not_mem_nil,
      or_false] at hb
    rcases hb with rfl | rfl | rfl <;> simp [FBlock.toBlock]
  · intro b hb
    simp only [FTape.blocks, exF, List.map_cons, List.map_nil, List.mem_cons, List.not_mem_nil,
      or_false] at hb
    rcases hb with rfl | rfl | rfl <;> simp [FBlock.toBlock]
  · simp [FTape.blocks, exF, FBlock.toBlock]

theorem exF_independent : IndependentControls exF.blocks [0, 1] := by
  intro c hc b hb ho
  simp only [FTape.blocks, exF, List.map_cons, List.map_nil, List.mem_cons, List.not_mem_nil,
      or_false] at hb hc
  rcases hb with rfl | rfl | rfl <;> rcases hc with rfl | rfl <;> simp [FBlock.toBlock] at ho

/-- The hypotheses of `gradient_exact_adjfloat` hold for `exF` with controls `v₀`, `v₁` at every
point. -/
example (x₀ : Fin 2 → ℝ) : WF exF.blocks ∧ [0, 1].Nodup ∧ IndependentControls exF.blocks [0, 1] ∧
    (∀ v, (exFHeap v).isControl = false) ∧
    (∀ b ∈ exF, (∃ d ∈ b.deps, Reach exF.blocks (· ∈ [0, 1]) d) →
      b.Smooth (saved (rfEval exF.blocks [0, 1] (List.ofFn x₀) exFHeap)) (Reach exF.blocks (· ∈ [0, 1]))) ∧
    (∀ c ∈ [0, 1], OnTape exF.blocks c ∨ c = 4 ∨ (exFHeap c).adj = none) := by
  refine ⟨exF_wf, by decide, exF_independent, fun _ => rfl, ?_, fun _ _ => Or.inr (Or.inr rfl)⟩
  intro b hb _
  simp only [exF, List.mem_cons, List.not_mem_nil, or_false] at hb
  rcases hb with rfl | rfl | rfl <;> trivial

/-- **C02 needs independent controls.** With `y = 2*x`, `J = y + x` and controls `[x, y]`, `rf([a, b])` is
`a + b`, whose gradient is `(1, 1)`; `rf.derivative()` returns `(3, 1)`: the adjoint sweep runs
through the block that produced the control `y`, which the replay does not. -/
theorem dependent_controls_wrong_gradient :
    ∃ (bs : Blocks Int Int Int) (x y J : BV) (h : Heap Int Int Int),
      WF bs ∧ [x, y].Nodup ∧ (∀ v, (h v).isControl = false ∧ (h v).adj = none) ∧
      (∀ a b : Int, ∃ h', rfCall bs J [x, y] 1 [a, b] h = some (a + b, h') ∧
        (rfDerivative bs J [x, y] 1 1 h').1 = [3, 1]) := by
  refine ⟨[exDouble 0 1, exAdd 1 0 2], 0, 1, 2, exHeap, ?_, by decide, fun _ => ⟨rfl, rfl⟩, ?_⟩
  · exact ⟨by simp [exDouble, exAdd], by simp [exDouble, exAdd], by simp [exDouble, exAdd]⟩
  · intro a b
    refine ⟨rfEval [exDouble 0 1, exAdd 1 0 2] [0, 1] [a, b] exHeap, ?_, rfl⟩
    have : saved (rfEval [exDouble 0 1, exAdd 1 0 2] [0, 1] [a, b] exHeap) 2 = b + a := by
      show List.sum [b, a] = b + a
      simp
    simp [rfCall, this, add_comm]

/-- **C02 needs controls without repetition.** With `J = 2*x` and controls `[x, x]`, `rf([a, b])` is `2*b`,
which does not depend on `a`; `rf.derivative()` reports `2` for both. -/
theorem duplicate_controls_wrong_gradient :
    ∃ (bs : Blocks Int Int Int) (x J : BV) (h : Heap Int Int Int),
      WF bs ∧ IndependentControls bs [x, x] ∧ (∀ v, (h v).isControl = false ∧ (h v).adj = none) ∧
      (∀ a b : Int, ∃ h', rfCall bs J [x, x] 1 [a, b] h = some (2 * b, h') ∧
        (rfDerivative bs J [x, x] 1 1 h').1 = [2, 2]) := by
  refine ⟨[exDouble 0 1], 0, 1, exHeap, ?_, ?_, fun _ => ⟨rfl, rfl⟩, ?_⟩
  · exact ⟨by simp [exDouble], by simp [exDouble], by simp⟩
  · intro c hc b hb ho
    simp only [List.mem_cons, List.not_mem_nil, or_false, or_self] at hb hc
    subst hb hc
    simp [exDouble] at ho
  · intro a b
    refine ⟨rfEval [exDouble 0 1] [0, 0] [a, b] exHeap, ?_, rfl⟩
    have : saved (rfEval [exDouble 0 1] [0, 0] [a, b] exHeap) 1 = 2 * b := rfl
    simp [rfCall, this]

end Pyadjoint
