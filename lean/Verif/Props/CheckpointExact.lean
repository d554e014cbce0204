import Verif.Props.CheckpointStored
import Verif.Props.CheckpointHessian
import Verif.Props.Gradient

/-!
# Checkpointed gradients are derivatives

`stored_gradient_partial` (C26) compares with the tape recorded without checkpointing.  Here it is put together with `gradient_exact_adjfloat`
(C02) and `checkpointed_value_as_without_partial` (C25), so that no other tape is mentioned: the derivative that a checkpointed tape
returns is the Fréchet derivative of the function that the checkpointed tape computes.
-/

namespace Pyadjoint
namespace CTape

theorem float_total (t : FTape) (b : Block ℝ ℝ ℝ) (hb : b ∈ t.blocks) (ys : List ℝ) (i : Nat) (hl : ys.length = b.deps.length)
    (_ : i < b.outs.length) : (b.recomputeC ys i).isSome := by
  obtain ⟨f, -, rfl⟩ := List.mem_map.1 hb
  cases f with
  | un op a o =>
    match ys, hl with
    | [y], _ => rfl
  | bin op a c o =>
    match ys, hl with
    | [x, y], _ => rfl

/-- **C26 and C02 for a checkpointed tape** (partial: for schedules that store what every adjoint needs, with controls used in every time
step and a functional recorded with a true value).  For every recorded `AdjFloat` program, after any history of evaluations and
derivatives: `rf(x)` is a function `value` of `x`, and `rf(x₀)` followed by `rf.derivative(adj_input)` returns the numbers `gᵢ` for which
`Σ gᵢ dxᵢ` is the Fréchet derivative of `adj_input · value` at `x₀`, if every operation that depends on a control is differentiable at
the values it is applied to. -/
theorem checkpointed_gradient_exact_partial {sch : Schedule} {h : FHeap} {es : List (Event ℝ ℝ ℝ)} {t : FTape}
    (ht : Event.blocks es = t.blocks) {τ₀ τ : CTape ℝ ℝ ℝ} (hr : Recorded sch h es τ₀) (hall : sch.StoresAll)
    (hend : τ₀.mgr.mode = .record ∨ ∃ es', es = es' ++ [.endTimestep]) (hf : Faithful h es)
    {truthy : ℝ → Bool} {cs : List BV} (hcs : cs.Nodup) (hinputs : ∀ c ∈ cs, ∀ b ∈ t.blocks, c ∉ b.outs)
    (hon : ∀ c ∈ cs, OnTape t.blocks c)
    (hh : History truthy cs τ₀ τ) (hmode : τ.mgr.mode ≠ .record)
    (hused : ∀ c ∈ cs, ∀ s ∈ τ.steps, ∃ b ∈ s.blocks, c ∈ b.deps)
    {J : BV} (htruthy : truthy (h J).output = true) (scale adjInput : ℝ) (x₀ : Fin cs.length → ℝ)
    (hsmooth : ∀ b ∈ t, (∃ d ∈ b.deps, Reach t.blocks (· ∈ cs) d) →
      b.Smooth (saved (rfEval t.blocks cs (List.ofFn x₀) h)) (Reach t.blocks (· ∈ cs))) :
    ∃ (value : (Fin cs.length → ℝ) → ℝ) (grad : Fin cs.length → ℝ),
      (∀ x, ∃ τ', rfCall truthy J cs scale (List.ofFn x) τ = .ok (value x, τ')) ∧
      (∀ τ₁, rfCall truthy J cs scale (List.ofFn x₀) τ = .ok (value x₀, τ₁) →
        ∃ τ₂, rfDerivative J cs (adjInput * scale) τ₁ = .ok (List.ofFn grad, τ₂)) ∧
      HasFDerivAt (fun x => adjInput * value x) (∑ i, grad i • (ContinuousLinearMap.proj i : (Fin cs.length → ℝ) →L[ℝ] ℝ)) x₀ := by
  have hfl : ∀ v, (h v).isControl = false := fun v => (hr.unused v).2.1
  have wf : WF t.blocks := ht ▸ hr.ssa
  have hin' : ∀ c ∈ cs, ∀ b ∈ Event.blocks es, c ∉ b.outs := by rw [ht]; exact hinputs
  have htot : ∀ b ∈ Event.blocks es, ∀ ys (i : Nat), ys.length = b.deps.length → i < b.outs.length → (b.recomputeC ys i).isSome := by
    rw [ht]; exact float_total t
  obtain ⟨grad, hg, hd⟩ := gradient_exact_adjfloat t wf J cs hcs h hfl (fun c hc b hb ho => absurd ho (hinputs c hc b hb)) scale adjInput x₀
    hsmooth (fun c hc => Or.inl (hon c hc)) _ _ (show Pyadjoint.rfCall t.blocks J cs scale (List.ofFn x₀) h = _ by
      unfold Pyadjoint.rfCall; rw [if_neg (by simp)])
  refine ⟨fun x => saved (rfEval t.blocks cs (List.ofFn x) h) J * scale, grad, fun x => ?_, fun τ₁ hτ₁ => ?_, ?_⟩
  · have := checkpointed_value_as_without_partial hr hh hmode hcs hin' htot htruthy scale (xs := List.ofFn x) (by simp)
    rw [ht] at this
    exact this
  · obtain ⟨y, σ₁, σ₂, h1, h2⟩ := stored_gradient_partial hr hall hend hf htot hcs hin' hh hmode hused J J scale (adjInput * scale)
      (xs := List.ofFn x₀) (by simp)
    rw [hτ₁] at h1
    cases h1
    refine ⟨σ₂, ?_⟩
    rw [h2, ht]
    congr 2
  · refine hd.congr_of_eventuallyEq (Filter.Eventually.of_forall fun x => ?_)
    simp only [rfValue_eq]

/-! ## Non-vacuity -/

/-- `v₁ := v₀ * v₀; v₂ := v₁ * v₀` in two time steps. -/
noncomputable def exCube : FTape := [.bin .mul 0 0 1, .bin .mul 1 0 2]

noncomputable def exCubeEvents : List (Event ℝ ℝ ℝ) :=
  [.block (FBlock.bin .mul 0 0 1).toBlock, .endTimestep, .block (FBlock.bin .mul 1 0 2).toBlock, .endTimestep]

noncomputable def exCubeHeap : FHeap := fun v => { output := if v = 0 then 3 else if v = 1 then 3 * 3 else (3 * 3) * 3 }

noncomputable def exCubeTape : CTape ℝ ℝ ℝ := tapeOf emptyFloatTape (record singleDisk2 exCubeHeap exCubeEvents)

theorem exCube_wf : WF exCube.blocks := by
  refine ⟨?_, ?_, ?_⟩
  · intro b hb
    simp only [FTape.blocks, exCube, List.map_cons, List.map_nil, List.mem_cons, List.not_mem_nil, or_false] at hb
    rcases hb with rfl | rfl <;> simp [FBlock.toBlock]
  · intro b hb
    simp only [FTape.blocks, exCube, List.map_cons, List.map_nil, List.mem_cons, List.not_mem_nil, or_false] at hb
    rcases hb with rfl | rfl <;> simp [FBlock.toBlock]
  · simp [FTape.blocks, exCube, FBlock.toBlock]

theorem exCube_recorded : Recorded singleDisk2 exCubeHeap exCubeEvents exCubeTape := by
  refine ⟨singleDisk2_wellFormed, fun v => ⟨rfl, rfl, rfl, rfl, rfl⟩, exCube_wf, none, true, false, ?_⟩
  have h := tapeOf_spec (d := emptyFloatTape) (r := record singleDisk2 exCubeHeap exCubeEvents) (by decide +kernel)
  unfold exCubeTape
  generalize tapeOf emptyFloatTape _ = τ at h
  unfold record at h
  split at h
  · cases h
  · rename_i τ₀ h₀
    exact ⟨τ₀, by decide, h₀, h⟩

theorem exCube_faithful : Faithful exCubeHeap exCubeEvents := by
  intro b hb i o ho y hy
  simp only [exCubeEvents, Event.blocks, List.mem_cons, List.not_mem_nil, or_false] at hb
  rcases hb with rfl | rfl
  · have ho' : [1][i]? = some o := ho
    rcases i with - | i
    · cases ho'
      cases hy
      simp [exCubeHeap, BOp.val]
    · simp at ho'
  · have ho' : [2][i]? = some o := ho
    rcases i with - | i
    · cases ho'
      cases hy
      simp [exCubeHeap, BOp.val]
    · simp at ho'

/-- The hypotheses of `checkpointed_gradient_exact_partial` hold for `x³` at every point. -/
example (scale adjInput : ℝ) (x₀ : Fin 1 → ℝ) :
    ∃ (value : (Fin 1 → ℝ) → ℝ) (grad : Fin 1 → ℝ),
      (∀ x, ∃ τ', rfCall (fun _ => true) 2 [0] scale (List.ofFn x) exCubeTape = .ok (value x, τ')) ∧
      (∀ τ₁, rfCall (fun _ => true) 2 [0] scale (List.ofFn x₀) exCubeTape = .ok (value x₀, τ₁) →
        ∃ τ₂, rfDerivative 2 [0] (adjInput * scale) τ₁ = .ok (List.ofFn grad, τ₂)) ∧
      HasFDerivAt (fun x => adjInput * value x) (∑ i, grad i • (ContinuousLinearMap.proj i : (Fin 1 → ℝ) →L[ℝ] ℝ)) x₀ := by
  have hall : exCubeTape.steps.all (fun s => s.blocks.any fun b => b.deps.any (· == 0)) = true := by decide +kernel
  refine checkpointed_gradient_exact_partial (t := exCube) (cs := [0]) (truthy := fun _ => true) (J := 2) rfl exCube_recorded singleDisk2_storesAll (Or.inr ⟨exCubeEvents.dropLast, rfl⟩)
    exCube_faithful (by simp) ?_ ?_ (.start _) (by decide +kernel) ?_ rfl scale adjInput x₀ ?_
  · intro c hc b hb
    rw [List.mem_singleton.1 hc]
    simp only [FTape.blocks, exCube, List.map_cons, List.map_nil, List.mem_cons, List.not_mem_nil, or_false] at hb
    rcases hb with rfl | rfl <;> decide
  · intro c hc
    rw [List.mem_singleton.1 hc]
    exact ⟨_, List.mem_cons_self, Or.inl List.mem_cons_self⟩
  · intro c hc s hs
    rw [List.mem_singleton.1 hc]
    obtain ⟨b, hb, hb'⟩ := List.any_eq_true.1 (List.all_eq_true.1 hall s hs)
    obtain ⟨d, hd, hd'⟩ := List.any_eq_true.1 hb'
    exact ⟨b, hb, by rw [← eq_of_beq hd']; exact hd⟩
  · intro b hb _
    simp only [exCube, List.mem_cons, List.not_mem_nil, or_false] at hb
    rcases hb with rfl | rfl <;> simp [FBlock.Smooth, BOp.Smooth]

end CTape
end Pyadjoint
