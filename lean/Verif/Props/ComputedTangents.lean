import Verif.Props.ComputedControls
import Verif.Props.SecondOrder
import Verif.Props.Hessian

/-!
# C87: tangents and Hessians with controls computed from one another

`rf.tlm`/`evaluate_tlm` add what a block computes onto the tangent value its output has already been given
(`block.py:226-227`, `block_variable.py:30-34`).
-/

namespace Pyadjoint

variable {V A : Type*} [NormedAddCommGroup V] [NormedSpace ℝ V] [NormedAddCommGroup A] [NormedSpace ℝ A]

omit [NormedAddCommGroup A] [NormedSpace ℝ A] in
theorem CorrectTangent.mono {b : Block V V A} {x : Fin b.deps.length → V} {vary vary' : Fin b.deps.length → Prop}
    (hc : CorrectTangent b x vary) (hv : ∀ j, vary' j → vary j) : CorrectTangent b x vary' := by
  obtain ⟨G, h1, h2⟩ := hc.deriv
  exact ⟨hc.total, G, fun i => (h1 i).mono fun u hu j hj => hu j fun h => hj (hv j h), fun t ht hn => h2 t ht fun j hj => hn j fun h => hj (hv j h)⟩

omit [NormedAddCommGroup A] [NormedSpace ℝ A] in
theorem CorrectTangent.offset {b : Block V V A} {x : Fin b.deps.length → V} {vary : Fin b.deps.length → Prop}
    (hc : CorrectTangent b x vary) (h : Heap V V A) : CorrectTangent (offsetBlock h b) x vary := by
  obtain ⟨G, h1, h2⟩ := hc.deriv
  refine ⟨fun u i => by simpa [offsetBlock] using hc.total u i, G, fun i => ?_, h2⟩
  have : (fun u : Fin b.deps.length → V => ((offsetBlock h b).recomputeC (List.ofFn u) i).getD 0)
      = fun u => (b.recomputeC (List.ofFn u) i).getD 0 + offsetOf h b i := by
    funext u
    obtain ⟨y, hy⟩ := Option.isSome_iff_exists.1 (hc.total u i)
    simp [offsetBlock, hy]
  exact (congrArg (fun f => HasFDerivWithinAt f _ _ _) this).mpr ((h1 i).add_const _)

omit [NormedAddCommGroup A] [NormedSpace ℝ A] in
/-- What one block does to the tangent values. -/
theorem tangent_step {bs : Blocks V V A} (wf : WF bs) (b : Block V V A) (hb : b ∈ bs) (x : Fin b.deps.length → V) (vary : Fin b.deps.length → Prop)
    (hc : CorrectTangent b x vary) : ∃ G : Fin b.outs.length → Fin b.deps.length → V →L[ℝ] V, ∀ g : Heap V V A, (∀ j : Fin b.deps.length, saved g b.deps[j] = x j) →
      (∀ j : Fin b.deps.length, ¬ vary j → (evaluateTlm bs false g b.deps[j]).tlm = none) → ∀ i : Fin b.outs.length,
        (evaluateTlm bs false g b.outs[i]).tlm.getD 0
          = (g b.outs[i]).tlm.getD 0 + ∑ j, G i j ((evaluateTlm bs false g b.deps[j]).tlm.getD 0) := by
  obtain ⟨G, -, h2⟩ := hc.deriv
  refine ⟨G, fun g hg hn i => ?_⟩
  have heq := evaluateTlm_eq wf false g b hb b.outs[i] (List.getElem_mem _)
  simp only [Fin.getElem_fin] at heq ⊢
  by_cases hall : (b.deps.map fun d => (evaluateTlm bs false g d).tlm).all Option.isNone
  · rw [if_pos hall] at heq
    rw [heq]
    have : ∀ j : Fin b.deps.length, (evaluateTlm bs false g b.deps[j]).tlm = none := by
      intro j
      rw [List.all_eq_true] at hall
      simpa using hall _ (List.mem_map.2 ⟨b.deps[j], List.getElem_mem _, rfl⟩)
    simp only [Fin.getElem_fin] at this
    simp [this]
  · rw [if_neg hall, if_pos (by simp), entries_zipIdx_nodup (wf.nodup b hb) i.isLt] at heq
    have hne : ∃ j : Fin b.deps.length, (evaluateTlm bs false g b.deps[j]).tlm ≠ none := by
      by_contra hno
      apply hall
      rw [List.all_eq_true]
      intro o ho
      obtain ⟨d, hd, rfl⟩ := List.mem_map.1 ho
      obtain ⟨j, hj, rfl⟩ := List.getElem_of_mem hd
      by_contra h
      exact hno ⟨⟨j, hj⟩, by simpa using h⟩
    have := h2 (fun j => (evaluateTlm bs false g b.deps[j]).tlm) hne hn i
    rw [map_eq_ofFn b.deps, map_eq_ofFn b.deps] at heq
    have hsv : (List.ofFn fun j : Fin b.deps.length => saved g b.deps[j]) = List.ofFn x := by
      congr 1; funext j; exact hg _
    rw [hsv] at heq
    simp only [List.foldl_cons, List.foldl_nil] at heq
    simp only [Fin.getElem_fin] at this heq
    rw [heq, ← this]
    generalize b.tlmC _ _ _ = y
    generalize (g b.outs[i.val]).tlm = z
    cases y <;> cases z <;> simp [accum]

omit [NormedAddCommGroup V] [NormedSpace ℝ V] [NormedAddCommGroup A] [NormedSpace ℝ A] in
theorem reach_mono {T : Type*} {bs : Blocks V T A} {S S' : BV → Prop} (hS : ∀ v, S v → S' v) {v : BV} (r : Reach bs S v) : Reach bs S' v := by
  induction r with
  | base hv => exact .base (hS _ hv)
  | step hb hd _ ho ih => exact .step hb hd ih ho

omit [NormedSpace ℝ V] [NormedAddCommGroup A] [NormedSpace ℝ A] in
/-- Tangents reach only what is computed from a seeded variable. -/
theorem tangent_none {bs : Blocks V V A} (wf : WF bs) (S : BV → Prop) (g : Heap V V A) (hg : ∀ v, OnTape bs v → ¬ S v → (g v).tlm = none) :
    ∀ v, OnTape bs v → ¬ Reach bs S v → (evaluateTlm bs false g v).tlm = none := by
  apply tape_induction wf (P := fun v => OnTape bs v → ¬ Reach bs S v → (evaluateTlm bs false g v).tlm = none)
  · intro v hv hon hr
    rw [evaluateTlm_of_not_out bs false g v hv]
    exact hg v hon fun h => hr (.base h)
  · intro b hb ih o ho hon hr
    rw [evaluateTlm_eq wf false g b hb o ho, if_pos]
    · exact hg o hon fun h => hr (.base h)
    · rw [List.all_eq_true]
      intro x hx
      obtain ⟨d, hd, rfl⟩ := List.mem_map.1 hx
      rw [ih d hd ⟨b, hb, .inl hd⟩ fun h => hr (.step hb hd h ho)]
      rfl

omit [NormedAddCommGroup A] [NormedSpace ℝ A] in
/-- The tangent with all controls is the sum of the tangents with one control each. -/
theorem tangent_superposition {bs : Blocks V V A} (wf : WF bs) (cs : List BV) (hnd : cs.Nodup) (dir : Fin cs.length → V) (h : Heap V V A)
    (hn : ∀ v, OnTape bs v → (h v).tlm = none)
    (hcorrect : ∀ b ∈ bs, (∃ d ∈ b.deps, Reach bs (· ∈ cs) d) →
      CorrectTangent b (fun j => saved h b.deps[j]) (fun j => Reach bs (· ∈ cs) b.deps[j])) :
    ∀ v, OnTape bs v → (evaluateTlm bs false (seedTlm cs (List.ofFn dir) h) v).tlm.getD 0
      = ∑ k : Fin cs.length, (evaluateTlm bs false (seedTlm [cs[k]] [dir k] h) v).tlm.getD 0 := by
  have hrest : ∀ v, OnTape bs v → v ∉ cs → (seedTlm cs (List.ofFn dir) h v).tlm = none := by
    intro v hv hc
    rw [seedTlm_of_not_mem _ _ _ _ hc]; exact hn v hv
  have hrest1 : ∀ (k : Fin cs.length) v, OnTape bs v → v ≠ cs[k] → (seedTlm [cs[k]] [dir k] h v).tlm = none := by
    intro k v hv hc
    rw [seedTlm_of_not_mem _ _ _ _ (by simpa using hc)]; exact hn v hv
  have hseed : ∀ v, OnTape bs v → (seedTlm cs (List.ofFn dir) h v).tlm.getD 0
      = ∑ k : Fin cs.length, (seedTlm [cs[k]] [dir k] h v).tlm.getD 0 := by
    intro v hv
    by_cases hc : v ∈ cs
    · obtain ⟨i, hi, rfl⟩ := List.getElem_of_mem hc
      have e := seedTlm_tlm cs (List.ofFn dir) h hnd (by simp) i hi
      rw [e, Finset.sum_eq_single (⟨i, hi⟩ : Fin cs.length)]
      · simp [seedTlm]
      · intro k _ hk
        rw [hrest1 k _ hv]
        · rfl
        · intro e
          apply hk
          exact Fin.ext ((List.Nodup.getElem_inj_iff hnd).1 e).symm
      · intro h; exact absurd (Finset.mem_univ _) h
    · rw [hrest v hv hc, Finset.sum_eq_zero]
      · rfl
      · intro k _
        rw [hrest1 k v hv]
        · rfl
        · rintro rfl; exact hc (List.getElem_mem _)
  have hnone := tangent_none wf (· ∈ cs) _ hrest
  have hnone1 : ∀ (k : Fin cs.length) v, OnTape bs v → ¬ Reach bs (· ∈ cs) v → (evaluateTlm bs false (seedTlm [cs[k]] [dir k] h) v).tlm = none := by
    intro k v hv hr
    exact tangent_none wf (· = cs[k]) _ (hrest1 k) v hv fun r => hr (reach_mono (fun v hv => by subst hv; exact List.getElem_mem _) r)
  apply tape_induction wf (P := fun v => OnTape bs v → (evaluateTlm bs false (seedTlm cs (List.ofFn dir) h) v).tlm.getD 0
      = ∑ k : Fin cs.length, (evaluateTlm bs false (seedTlm [cs[k]] [dir k] h) v).tlm.getD 0)
  · intro v hv hon
    simp only [evaluateTlm_of_not_out bs false _ v hv]
    exact hseed v hon
  · intro b hb ih o ho hon
    obtain ⟨i, hi, rfl⟩ := List.getElem_of_mem ho
    have hdep : ∀ j : Fin b.deps.length, OnTape bs b.deps[j] := fun j => ⟨b, hb, .inl (List.getElem_mem _)⟩
    by_cases hd : ∃ d ∈ b.deps, Reach bs (· ∈ cs) d
    · obtain ⟨G, hG⟩ := tangent_step wf b hb _ _ (hcorrect b hb hd)
      have e := hG (seedTlm cs (List.ofFn dir) h) (fun j => by simp) (fun j hj => hnone _ (hdep j) hj) ⟨i, hi⟩
      have e1 := fun k : Fin cs.length => hG (seedTlm [cs[k]] [dir k] h) (fun j => by simp) (fun j hj => hnone1 k _ (hdep j) hj) ⟨i, hi⟩
      simp only [Fin.getElem_fin] at e e1 ⊢
      rw [e, Finset.sum_congr rfl fun k _ => e1 k, Finset.sum_add_distrib]
      congr 1
      · exact hseed _ hon
      · rw [Finset.sum_comm]
        refine Finset.sum_congr rfl fun j _ => ?_
        rw [← map_sum]
        congr 1
        exact ih _ (List.getElem_mem _) (hdep j)
    · have key : ∀ g : Heap V V A, (∀ j : Fin b.deps.length, (evaluateTlm bs false g b.deps[j]).tlm = none) →
          (evaluateTlm bs false g b.outs[i]).tlm = (g b.outs[i]).tlm := by
        intro g hg
        rw [evaluateTlm_eq wf false g b hb _ ho, if_pos]
        rw [List.all_eq_true]
        intro x hx
        obtain ⟨d, hd, rfl⟩ := List.mem_map.1 hx
        obtain ⟨j, hj, rfl⟩ := List.getElem_of_mem hd
        have := hg ⟨j, hj⟩
        simp only [Fin.getElem_fin] at this
        rw [this]; rfl
      rw [key _ fun j => hnone _ (hdep j) fun r => hd ⟨_, List.getElem_mem _, r⟩, hseed _ hon]
      refine Finset.sum_congr rfl fun k _ => ?_
      rw [key _ fun j => hnone1 k _ (hdep j) fun r => hd ⟨_, List.getElem_mem _, r⟩]

/-- **C87, tangents.** Whatever the controls are, and whatever values the variables have: reset the tangents, assign `dir` to the controls and run
`evaluate_tlm`.  A variable then carries the sum, over the controls, of its directional derivatives with that control alone, of the program corrected so
that it gives the present values at the present inputs.  A missing value stands for zero. -/
theorem tangent_of_any_controls {bs : Blocks V V A} (wf : WF bs) (cs : List BV) (hnd : cs.Nodup) (dir : Fin cs.length → V) (h : Heap V V A)
    (hfl : ∀ v, (h v).isControl = false)
    (hcorrect : ∀ b ∈ bs, (∃ d ∈ b.deps, Reach bs (· ∈ cs) d) →
      CorrectTangent b (fun j => saved h b.deps[j]) (fun j => Reach bs (· ∈ cs) b.deps[j]))
    (v : BV) (hv : OnTape bs v) :
    ∃ D : Fin cs.length → V, (∀ k : Fin cs.length,
        HasDerivAt (fun s : ℝ => saved (rfEval (withOffsets h bs) [cs[k]] [saved h cs[k] + s • dir k] h) v) (D k) 0) ∧
      (evaluateTlm bs false (seedTlm cs (List.ofFn dir) (resetVariables bs .tlm h)) v).tlm.getD 0 = ∑ k, D k := by
  refine ⟨fun k => (evaluateTlm bs false (seedTlm [cs[k]] [dir k] (resetVariables bs .tlm h)) v).tlm.getD 0, fun k => ?_, ?_⟩
  · have hmono : ∀ v, Reach bs (· ∈ [cs[k]]) v → Reach bs (· ∈ cs) v := fun v r =>
      reach_mono (fun v hv => by obtain rfl := List.mem_singleton.1 hv; exact List.getElem_mem _) r
    have hE : ∀ g : Heap V V A, evaluateTlm (withOffsets h bs) false g = evaluateTlm bs false g := by
      intro g
      unfold evaluateTlm withOffsets
      rw [List.foldl_map]
      rfl
    have hfix := withOffsets_fixed wf h hfl cs[k]
    have hx : ∀ v, replayVal (withOffsets h bs) [cs[k]] h (fun _ => saved h cs[k]) v = saved h v := hfix
    have wf' := withOffsets_wf wf h
    have hi := single_control_independent wf' cs[k]
    have := tlm_curve wf' [cs[k]] (by simp) h hfl (fun _ => saved h cs[k]) (fun _ => dir k)
      (fun b hb ⟨d, hd, hr⟩ o ho hc => hi o hc b hb ho d hd hr) (by
        intro b hb hd
        obtain ⟨b, hb', rfl⟩ := List.mem_map.1 hb
        simp only [hx, withOffsets_reach] at hd ⊢
        obtain ⟨d, hd, hr⟩ := hd
        exact ((hcorrect b hb' ⟨d, hd, hmono d hr⟩).mono fun j hj => hmono _ hj).offset h) false
      (seedTlm [cs[k]] [dir k] (resetVariables bs .tlm h)) (by intro v; rw [hx]; simp) (fun h => by cases h) (by intro i; simp [seedTlm]) (by
        intro w hw hc
        rw [seedTlm_of_not_mem _ _ _ _ hc, resetVariables_apply, if_pos ((withOffsets_onTape h).1 hw)]
        rfl) v (.inl ((withOffsets_onTape h).2 hv))
    rw [hE] at this
    exact this.1
  · refine tangent_superposition wf cs hnd dir _ ?_ ?_ v hv
    · intro w hw
      rw [resetVariables_apply, if_pos hw]; rfl
    · simpa using hcorrect

/-- The hypotheses of `tangent_of_any_controls` hold for `(v₀³)³` with the controls `v₀` and `v₁ = v₀³`, at any values. -/
example (x y : ℝ) (dir : Fin 2 → ℝ) : ∃ D : Fin 2 → ℝ, (∀ k : Fin 2,
      HasDerivAt (fun s : ℝ => saved (rfEval (withOffsets (rfEval cubeTape [0, 1] [x, y] cubeHeap) cubeTape) [([0, 1] : List BV)[k]]
        [saved (rfEval cubeTape [0, 1] [x, y] cubeHeap) ([0, 1] : List BV)[k] + s • dir k] (rfEval cubeTape [0, 1] [x, y] cubeHeap)) 2) (D k) 0) ∧
    (evaluateTlm cubeTape false (seedTlm [0, 1] (List.ofFn dir) (resetVariables cubeTape .tlm (rfEval cubeTape [0, 1] [x, y] cubeHeap))) 2).tlm.getD 0
      = ∑ k, D k := by
  refine tangent_of_any_controls cubeTape_wf [0, 1] (by decide) dir _ ?_ ?_ 2 ⟨cubeBlock 1 2, by simp [cubeTape], Or.inr (by simp [cubeBlock])⟩
  · intro v
    obtain ⟨k, hk⟩ := rfEval_frame cubeTape [0, 1] [x, y] cubeHeap v (fun c _ => rfl)
    rw [hk]; rfl
  · intro b hb _
    obtain ⟨d, o, rfl, _⟩ := cubeTape_dep b hb
    exact cube_tangent d o _ _

/-- **C05, C06 fail for controls computed from one another.** `y = x + x ; J = y * y` with controls `x` and `y`: `rf(x, y) = y²`, so the directional
derivative in direction `(a, b)` is `2 y b` and the second derivative `[0, 2 b]`.  `evaluate_tlm` gives `2 y (2 a + b)`, and `rf.hessian` gives
`[4 (2 a + b), 2 (2 a + b)]`, at every point and direction. -/
theorem computed_control_wrong_second (x y a b : ℝ) :
    (∀ u : Fin 2 → ℝ, rfValue twiceTape 2 [0, 1] 1 unitHeap u = u 1 * u 1) ∧
    (twiceTape.evaluateTlm false (seedTlm [0, 1] [a, b] (resetVariables twiceTape.blocks .tlm (rfEval twiceTape.blocks [0, 1] [x, y] unitHeap))) 2).tlm
      = some (2 * y * (2 * a + b)) ∧
    (twiceTape.computeHessian 2 [0, 1] [a, b] (rfDerivative twiceTape.blocks 2 [0, 1] 1 1 (rfEval twiceTape.blocks [0, 1] [x, y] unitHeap)).2).map Prod.fst
      = .ok [4 * (2 * a + b), 2 * (2 * a + b)] := by
  refine ⟨(computed_control_wrong_derivative x y).1, ?_, ?_⟩
  · have : ∃ r, (twiceTape.evaluateTlm false (seedTlm [0, 1] [a, b] (resetVariables twiceTape.blocks .tlm (rfEval twiceTape.blocks [0, 1] [x, y] unitHeap))) 2).tlm
        = some r ∧ r = 2 * y * (2 * a + b) := by
      refine ⟨_, rfl, ?_⟩
      show (0 + (b + ((0 + a) + a)) * y) + (b + ((0 + a) + a)) * y = _
      ring
    obtain ⟨r, h, rfl⟩ := this
    exact h
  · have : ∃ r s, (twiceTape.computeHessian 2 [0, 1] [a, b] (rfDerivative twiceTape.blocks 2 [0, 1] 1 1 (rfEval twiceTape.blocks [0, 1] [x, y] unitHeap)).2).map Prod.fst
        = .ok [r, s] ∧ r = 4 * (2 * a + b) ∧ s = 2 * (2 * a + b) := by
      refine ⟨_, _, rfl, ?_, ?_⟩
      · show ((1 * 1 * (b + ((0 + a) + a)) + 0 * y) + (1 * 1 * (b + ((0 + a) + a)) + 0 * y)) + ((1 * 1 * (b + ((0 + a) + a)) + 0 * y) + (1 * 1 * (b + ((0 + a) + a)) + 0 * y)) = _
        ring
      · show ((1 * 1 * (b + ((0 + a) + a)) + 0 * y) + (1 * 1 * (b + ((0 + a) + a)) + 0 * y)) = _
        ring
    obtain ⟨r, s, h, rfl, rfl⟩ := this
    exact h

end Pyadjoint
