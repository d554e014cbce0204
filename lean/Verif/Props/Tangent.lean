import Verif.Proofs.FloatTlm
import Verif.Props.Gradient

/-!
# C05: the tangent linear sweep is the directional derivative
-/

namespace Pyadjoint

/-- **C05.** After `rf(x₀)`, reset the tangent values, assign `dir` to the controls and run
`tape.evaluate_tlm()`.  Under the hypotheses of C02 every variable of the tape then carries its
directional derivative with respect to the controls in direction `dir` (a missing value stands for
zero), and variables that are not computed from a control carry no value. -/
theorem tlm_exact (t : FTape) (wf : WF t.blocks) (cs : List BV) (hnd : cs.Nodup) (h : FHeap)
    (hfl : ∀ v, (h v).isControl = false) (hind : IndependentControls t.blocks cs)
    (x₀ dir : Fin cs.length → ℝ)
    (hsmooth : ∀ b ∈ t, (∃ d ∈ b.deps, Reach t.blocks (· ∈ cs) d) →
      b.Smooth (saved (rfEval t.blocks cs (List.ofFn x₀) h)) (Reach t.blocks (· ∈ cs)))
    (v : BV) (hv : OnTape t.blocks v) :
    let h₁ := rfEval t.blocks cs (List.ofFn x₀) h
    let h₂ := t.evaluateTlm false (seedTlm cs (List.ofFn dir) (resetVariables t.blocks .tlm h₁))
    HasDerivAt (fun s : ℝ => saved (rfEval t.blocks cs (List.ofFn (x₀ + s • dir)) h) v)
        ((h₂ v).tlm.getD 0) 0 ∧
      (¬ Reach t.blocks (· ∈ cs) v → (h₂ v).tlm = none) := by
  intro h₁ h₂
  have hind' : ∀ b ∈ t, (∃ d ∈ b.deps, Reach t.blocks (· ∈ cs) d) → b.out ∉ cs := by
    intro b hb ⟨d, hd, hr⟩ hc
    exact hind b.out hc b.toBlock (List.mem_map.2 ⟨b, hb, rfl⟩) ((b.mem_outs _).2 rfl) d
      (by rw [b.toBlock_deps]; exact hd) hr
  obtain ⟨D, hD, hD0, hDc, hDb⟩ := FTape.deriv wf cs hnd h hfl x₀ hind' hsmooth
  let dirv : BV → ℝ := fun v => D v dir
  have key := FTape.tlm_exact_aux wf cs (saved h₁) dirv (fun v => D v dir)
    (by intro v hv; simp [hD0 v hv]) (fun c hc => rfl)
    (by
      intro b hb hd
      have e := hDb b hb hd
      cases b <;> simp [e, FBlock.lin, h₁])
    hind' false (seedTlm cs (List.ofFn dir) (resetVariables t.blocks .tlm h₁))
    (by intro v; simp) (by simp)
    (by
      intro c hc
      obtain ⟨i, hi, rfl⟩ := List.getElem_of_mem hc
      rw [seedTlm_tlm _ _ _ hnd (by simp) i hi]
      simp only [dirv]
      have := hDc ⟨i, hi⟩
      simp only [Fin.getElem_fin] at this
      rw [this]; simp)
    (by
      intro w hw hc
      rw [seedTlm_of_not_mem _ _ _ _ hc, resetVariables_apply, if_pos hw]
      rfl) v (Or.inl hv)
  refine ⟨?_, key.2⟩
  have hline : HasDerivAt (fun s : ℝ => x₀ + s • dir) dir 0 := by
    simpa using ((hasDerivAt_id (0 : ℝ)).smul_const dir).const_add x₀
  have := (hD v)
  have e0 : x₀ + (0 : ℝ) • dir = x₀ := by simp
  rw [← e0] at this
  have := this.comp_hasDerivAt (0 : ℝ) hline
  show HasDerivAt _ _ 0
  rw [key.1]
  exact this

/-- The hypotheses of `tlm_exact` are those shown satisfiable for `exF` after `gradient_exact_adjfloat`;
here the remaining one. -/
example : OnTape exF.blocks 4 :=
  ⟨FBlock.toBlock (.bin .add 3 0 4), by simp [FTape.blocks, exF], by simp [FBlock.toBlock]⟩

/-- A missing tangent value does not mean independence: the output of `min(a, b)` with `a < b` carries no
tangent value if only `b` is seeded, although it is computed from `b`. -/
theorem min_missing_tangent (a b s : ℝ) (hab : a < b) :
    let h : FHeap := fun v => { output := if v = 0 then a else b }
    let t : FTape := [.bin .min 0 1 2]
    Reach t.blocks (· ∈ [1]) 2 ∧ (t.evaluateTlm false (seedTlm [1] [s] h) 2).tlm = none := by
  intro h t
  constructor
  · exact Reach.step (b := FBlock.toBlock (.bin .min 0 1 2)) (by simp [t, FTape.blocks])
      (d := 1) (by simp [FBlock.toBlock]) (Reach.base (by simp)) (by simp [FBlock.toBlock])
  · have := FTape.evaluateTlm_eq (t := t) (by
      refine ⟨?_, ?_, ?_⟩ <;> simp [t, FTape.blocks, FBlock.toBlock]) false (seedTlm [1] [s] h)
      (.bin .min 0 1 2) (by simp [t])
    simp only [FBlock.out] at this
    rw [this]
    have h0 : FTape.evaluateTlm t false (seedTlm [1] [s] h) 0 = h 0 := by
      rw [FTape.evaluateTlm_of_not_out]
      · rw [seedTlm_of_not_mem]; simp
      · simp [t, FBlock.out, FBlock.deps]
      · simp [t, FBlock.out]
    have s0 : saved (seedTlm [1] [s] h) 0 = a := by rw [saved_seedTlm]; simp [h, saved]
    have s1 : saved (seedTlm [1] [s] h) 1 = b := by rw [saved_seedTlm]; simp [h, saved]
    simp only [FBlock.tlmNew, h0, s0, s1, BOp.tlmC, if_pos hab.le]
    simp only [seedTlm_of_not_mem [1] [s] h 2 (by simp), h, accum]
    split <;> rfl

end Pyadjoint
