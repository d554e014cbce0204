import Verif.Proofs.Chain

/-! The gradient of a tape of correct blocks is the Fréchet derivative of its replay. -/

namespace Pyadjoint

variable {V T A : Type*} [NormedAddCommGroup V] [NormedSpace ℝ V] [AddCommMonoid A]

theorem gradient_exact_aux {bs : Blocks V T A} (wf : WF bs) (J : BV) (cs : List BV)
    (hnd : cs.Nodup) (h : Heap V T A) (hfl : ∀ v, (h v).isControl = false)
    (x₀ : Fin cs.length → V) (ι : A →+ (V →L[ℝ] ℝ)) (seed : A)
    (hind : ∀ b ∈ bs, (∃ d ∈ b.deps, Reach bs (· ∈ cs) d) → ∀ o ∈ b.outs, o ∉ cs)
    (hcorrect : ∀ b ∈ bs, (∃ d ∈ b.deps, Reach bs (· ∈ cs) d) →
      CorrectAdjoint ι b (fun j => replayVal bs cs h x₀ b.deps[j])
        (fun j => Reach bs (· ∈ cs) b.deps[j]))
    (g : Heap V T A) (hg : ∀ v, saved g v = replayVal bs cs h x₀ v)
    (hon : ∀ c ∈ cs, OnTape bs c ∨ c = J ∨ (g c).adj = none) :
    HasFDerivAt (fun x => ι seed (replayVal bs cs h x J))
      (∑ i : Fin cs.length, (ι (getDerivative (computeGradientState bs J cs seed g) cs[i])).comp
        (ContinuousLinearMap.proj i)) x₀ := by
  classical
  obtain ⟨D, hD, hD0, hDc, hloc⟩ := replayVal_deriv wf cs hnd h hfl x₀ ι hind hcorrect
  have hJ : HasFDerivAt (fun x => ι seed (replayVal bs cs h x J)) ((ι seed).comp (D J)) x₀ :=
    (ι seed).hasFDerivAt.comp x₀ (hD J)
  refine hJ.congr_fderiv ?_
  let pr : A → ((Fin cs.length → V) →L[ℝ] V) → ((Fin cs.length → V) →L[ℝ] ℝ) :=
    fun a t => (ι a).comp t
  have hadd : ∀ a b t, pr (a + b) t = pr a t + pr b t := by
    intro a b t; ext y; simp [pr]
  let g₀ : Heap V T A := Function.update (resetVariables bs .adjoint g) J
    { resetVariables bs .adjoint g J with adj := some seed }
  let g₁ := markControls cs true (markAll (findRelevantNodes bs cs) true g₀)
  let s : Finset BV := (bs.flatMap fun b => b.deps ++ b.outs).toFinset ∪ insert J cs.toFinset
  have hs : ∀ v, OnTape bs v → v ∈ s := by
    rintro v ⟨b, hb, hv⟩
    apply Finset.mem_union_left
    rw [List.mem_toFinset, List.mem_flatMap]
    exact ⟨b, hb, List.mem_append.2 hv⟩
  have hsv : ∀ v, saved g₁ v = saved (rfEval bs cs (List.ofFn x₀) h) v := by
    intro v
    simp only [g₁, g₀, saved_markControls, saved_markAll, saved_update_adj, saved_resetVariables]
    exact hg v
  have dual := evaluateAdj_dual pr hadd wf (fun v => Reach bs (· ∈ cs) v) true g₁ D s hs
    (by
      intro v hv
      have := (findRelevantNodes_iff wf cs v).2 hv
      simp [g₁, markAll_apply, this])
    (by intro v hv a; simp only [pr]; rw [hD0 v hv]; simp)
    (by
      intro b hb hd
      rw [List.map_congr_left fun v _ => hsv v]
      exact hloc b hb hd)
  -- right hand side: only the seed pairs to something
  have hpv0 : ∀ (o : Option A), pv pr o (0 : (Fin cs.length → V) →L[ℝ] V) = 0 := by
    intro o; cases o <;> simp [pv, pr]
  have hR : ∑ v ∈ s, pv pr (g₁ v).adj (D v) = (ι seed).comp (D J) := by
    rw [Finset.sum_eq_single_of_mem J (Finset.mem_union_right _ (by simp))]
    · simp only [g₁, markControls_adj, markAll_adj, g₀, Function.update_self]
      rfl
    · intro v _ hvJ
      by_cases hr : Reach bs (· ∈ cs) v
      · have : (g₁ v).adj = none := by
          simp only [g₁, markControls_adj, markAll_adj, g₀]
          rw [Function.update_of_ne hvJ, resetVariables_apply]
          split
          · rfl
          · rename_i hoff
            cases hr with
            | base hc =>
              rcases hon v hc with h' | h' | h'
              · exact absurd h' hoff
              · exact absurd h' hvJ
              · exact h'
            | step hb _ _ ho => exact absurd ⟨_, hb, Or.inr ho⟩ hoff
        rw [this]; rfl
      · rw [hD0 v hr]; exact hpv0 _
  have hder : ∀ v, (computeGradientState bs J cs seed g v).adj = (evaluateAdj bs true g₁ v).adj := by
    intro v
    unfold computeGradientState markedAdjoint
    simp only [markAll_adj, markControls_adj]
    rfl
  rw [hR] at dual
  rw [← dual]
  -- left hand side: only controls are alive and reachable
  have hsub : cs.toFinset ⊆ alive bs (fun v => Reach bs (· ∈ cs) v) s := by
    intro c hc
    rw [mem_alive]
    refine ⟨Finset.mem_union_right _ (Finset.mem_insert_of_mem hc), ?_⟩
    rintro ⟨b, hb, hd, ho⟩
    exact hind b hb hd c ho (List.mem_toFinset.1 hc)
  rw [← Finset.sum_subset hsub]
  · rw [List.sum_toFinset _ hnd, map_eq_ofFn, List.sum_ofFn]
    apply Finset.sum_congr rfl
    intro i _
    rw [hDc i]
    unfold getDerivative
    rw [hder]
    cases (evaluateAdj bs true g₁ cs[i]).adj with
    | none => simp [pv]
    | some a => rfl
  · intro v hv hvc
    rw [mem_alive] at hv
    have : ¬ Reach bs (· ∈ cs) v := by
      intro hr
      cases hr with
      | base hc => exact hvc (List.mem_toFinset.2 hc)
      | step hb hd hr' ho => exact hv.2 ⟨_, hb, ⟨_, hd, hr'⟩, ho⟩
    rw [hD0 v this]; exact hpv0 _

end Pyadjoint
