import Verif.Proofs.SecondOrder
import Verif.Props.Gradient
import Verif.Props.Tangent
import Mathlib.Analysis.Calculus.Deriv.Pow
import Mathlib.Tactic.Set

/-!
# C56: second derivatives through user-defined blocks

Tapes of arbitrary blocks that use the `evaluate_tlm` and `evaluate_hessian` of `block.py`.
-/

set_option linter.unusedSimpArgs false

namespace Pyadjoint

variable {V A : Type*} [NormedAddCommGroup V] [NormedSpace ℝ V] [NormedAddCommGroup A] [NormedSpace ℝ A]

/-- **C56, tangents.** After `rf(x₀)`, reset the tangent values, assign `dir` to the controls and run `tape.evaluate_tlm()`, on a tape whose relevant
blocks have the right tangent components at the point: every variable of the tape carries its directional derivative with respect to the controls in
direction `dir` (a missing value stands for zero), and a variable that is not computed from a control carries no value. -/
theorem tlm_exact_blocks {bs : Blocks V V A} (wf : WF bs) (cs : List BV) (hnd : cs.Nodup) (h : Heap V V A) (hfl : ∀ v, (h v).isControl = false)
    (hind : IndependentControls bs cs) (x₀ dir : Fin cs.length → V)
    (hcorrect : ∀ b ∈ bs, (∃ d ∈ b.deps, Reach bs (· ∈ cs) d) →
      CorrectTangent b (fun j => saved (rfEval bs cs (List.ofFn x₀) h) b.deps[j]) (fun j => Reach bs (· ∈ cs) b.deps[j]))
    (v : BV) (hv : OnTape bs v) :
    let h₁ := rfEval bs cs (List.ofFn x₀) h
    let h₂ := evaluateTlm bs false (seedTlm cs (List.ofFn dir) (resetVariables bs .tlm h₁))
    HasDerivAt (fun s : ℝ => saved (rfEval bs cs (List.ofFn (x₀ + s • dir)) h) v) ((h₂ v).tlm.getD 0) 0 ∧
      (¬ Reach bs (· ∈ cs) v → (h₂ v).tlm = none) := by
  intro h₁ h₂
  refine tlm_curve wf cs hnd h hfl x₀ dir (fun b hb ⟨d, hd, hr⟩ o ho hc => hind o hc b hb ho d hd hr) hcorrect false _ ?_ (fun h => by cases h) ?_ ?_ v
    (Or.inl hv)
  · intro w
    rw [saved_seedTlm, saved_resetVariables]
    rfl
  · intro i
    have := seedTlm_tlm cs (List.ofFn dir) (resetVariables bs .tlm h₁) hnd (by simp) i.val i.isLt
    simpa using this
  · intro w hw hc
    rw [seedTlm_of_not_mem _ _ _ _ hc, resetVariables_apply, if_pos hw]
    rfl

/-- **C56, Hessians.** On a tape all of whose relevant blocks have the right tangent and Hessian components at the point: after `rf(x₀)` and
`rf.derivative(adj_input = seed)`, the values returned by `rf.hessian(dir)` are the derivatives at `s = 0` of the values that `rf(x₀ + s dir)`,
`rf.derivative(adj_input = seed)` return. -/
theorem hessian_eq_deriv_gradient_blocks {bs : Blocks V V A} (wf : WF bs) (J : BV) (cs : List BV) (hnd : cs.Nodup) (h : Heap V V A)
    (hfl : ∀ v, (h v).isControl = false) (hmk : ∀ v, (h v).marked = false) (hind : IndependentControls bs cs) (seed : A) (x₀ dir : Fin cs.length → V)
    (htan : ∀ b ∈ bs, (∃ d ∈ b.deps, Reach bs (· ∈ cs) d) →
      CorrectTangent b (fun j => saved (rfEval bs cs (List.ofFn x₀) h) b.deps[j]) (fun j => Reach bs (· ∈ cs) b.deps[j]))
    (hhess : ∀ b ∈ bs, (∃ d ∈ b.deps, Reach bs (· ∈ cs) d) →
      CorrectHessian b (fun j => saved (rfEval bs cs (List.ofFn x₀) h) b.deps[j]) (fun j => Reach bs (· ∈ cs) b.deps[j]))
    (hon : ∀ c ∈ cs, OnTape bs c ∨ c = J ∨ ((h c).adj = none ∧ (h c).hess = none)) :
    ∃ (grad : ℝ → Fin cs.length → A) (hess : Fin cs.length → A),
      (∀ s, (computeGradient bs J cs seed (rfEval bs cs (List.ofFn (x₀ + s • dir)) h)).1 = List.ofFn (grad s)) ∧
      (computeHessianOf bs J cs (List.ofFn dir) (computeGradient bs J cs seed (rfEval bs cs (List.ofFn x₀) h)).2).1 = List.ofFn hess ∧
      ∀ i, HasDerivAt (fun s => grad s i) (hess i) 0 := by
  classical
  set R := Reach bs (· ∈ cs) with hRdef
  set nodes := findRelevantNodes bs cs with hnodes
  have hn : ∀ v, v ∈ nodes ↔ R v := fun v => findRelevantNodes_iff wf cs v
  have hind' : ∀ b ∈ bs, (∃ d ∈ b.deps, R d) → ∀ o ∈ b.outs, o ∉ cs := fun b hb ⟨d, hd, hr⟩ o ho hc => hind o hc b hb ho d hd hr
  have hRc : ∀ b ∈ bs, (∃ d ∈ b.deps, R d) → ∀ o ∈ b.outs, R o := fun b hb ⟨d, hd, hr⟩ o ho => Reach.step hb hd hr ho
  let val : ℝ → BV → V := fun s v => saved (rfEval bs cs (List.ofFn (x₀ + s • dir)) h) v
  have e0 : x₀ + (0 : ℝ) • dir = x₀ := by simp
  have hval0 : ∀ v, val 0 v = saved (rfEval bs cs (List.ofFn x₀) h) v := by intro v; simp only [val, e0]
  let pre : Heap V V A → Heap V V A := fun h =>
    let h := resetVariables bs .adjoint h
    let h := Function.update h J { h J with adj := some seed }
    markControls cs true (markAll nodes true h)
  have hpost : ∀ h : Heap V V A, (computeGradient bs J cs seed h).2
      = markAll nodes false (markControls cs false (evaluateAdj bs true (pre h))) := fun h => rfl
  let H : ℝ → Heap V V A := fun s => pre (rfEval bs cs (List.ofFn (x₀ + s • dir)) h)
  set h₁ := rfEval bs cs (List.ofFn x₀) h with hh₁
  set h₂ := (computeGradient bs J cs seed h₁).2 with hh₂
  set h₃ := seedTlm cs (List.ofFn dir) (resetVariables bs .hessian (resetVariables bs .tlm h₂)) with hh₃
  set h₄ := evaluateTlm bs true (markAll nodes true h₃) with hh₄
  set h₅ := markAll nodes false h₄ with hh₅
  set g := markAll nodes true (Function.update h₅ J { h₅ J with hess := some 0 }) with hg
  have hres : (computeHessianOf bs J cs (List.ofFn dir) h₂).1 = cs.map (getHessian (markAll nodes false (evaluateHessian bs true g))) := rfl
  have fr₁ : ∀ v, ∃ c, h₁ v = { h v with ckpt := c } := fun v => rfEval_frame bs cs _ h v (fun c _ => hfl c)
  have pre_marked : ∀ (k : Heap V V A) v, (pre k v).marked = (decide (v ∈ nodes) || (k v).marked) := by
    intro k v
    simp only [pre, markControls_marked, markAll_apply]
    by_cases hv : v ∈ nodes
    · simp [hv]
    · simp only [hv, if_false, decide_false, Bool.false_or]
      rw [Function.update_apply]; split <;> simp_all
  have pre_saved : ∀ (k : Heap V V A) v, saved (pre k) v = saved k v := by
    intro k v
    simp only [pre, saved_markControls, saved_markAll]
    refine Eq.trans (saved_congr ?_ ?_) (saved_resetVariables bs .adjoint k v) <;>
      (rw [Function.update_apply]; split <;> simp_all)
  have pre_adj : ∀ (k : Heap V V A) v, (pre k v).adj
      = if v = J then some seed else if OnTape bs v then none else (k v).adj := by
    intro k v
    simp only [pre, markControls_adj, markAll_adj]
    rw [Function.update_apply]
    split
    · rfl
    · rw [resetVariables_apply]; split <;> rfl
  have pre_hess : ∀ (k : Heap V V A) v, (pre k v).hess = (k v).hess := by
    intro k v
    simp only [pre, markControls_hess, markAll_hess]
    rw [Function.update_apply]; split <;> simp_all
  have h2_marked : ∀ v, (h₂ v).marked = false := by
    intro v
    rw [hh₂, hpost, markAll_apply]
    split
    · rfl
    · rename_i hv
      rw [markControls_marked, evaluateAdj_marked, pre_marked]
      obtain ⟨c, hc⟩ := fr₁ v
      rw [hc]; simp [hv, hmk]
  have h2_saved : ∀ v, saved h₂ v = saved h₁ v := by
    intro v; rw [hh₂, hpost]; simp [pre_saved]
  have h2_adj : ∀ v, (h₂ v).adj = (evaluateAdj bs true (H 0) v).adj := by
    intro v
    have : H 0 = pre h₁ := by simp only [H, e0, hh₁]
    rw [this, hh₂, hpost]; simp
  have h2_hess : ∀ v, (h₂ v).hess = (h v).hess := by
    intro v; rw [hh₂, hpost]; simp only [markAll_hess, markControls_hess, evaluateAdj_hess, pre_hess]
    obtain ⟨c, hc⟩ := fr₁ v; rw [hc]
  have fr₃ : ∀ v, (h₃ v).marked = false ∧ (h₃ v).adj = (h₂ v).adj ∧ (h₃ v).hess = (if OnTape bs v then none else (h v).hess) := by
    intro v
    obtain ⟨o, ho⟩ := seedTlm_frame cs (List.ofFn dir) (resetVariables bs .hessian (resetVariables bs .tlm h₂)) v
    rw [hh₃, ho]
    refine ⟨by simp [h2_marked], by simp, ?_⟩
    show (resetVariables bs .hessian (resetVariables bs .tlm h₂) v).hess = _
    rw [resetVariables_apply]
    split
    · rfl
    · rw [resetTlm_hess, h2_hess]
  have sv₃ : ∀ v, saved h₃ v = saved h₁ v := by intro v; rw [hh₃]; simp [h2_saved]
  have fr₄ := fun v => evaluateTlm_frame bs true (markAll nodes true h₃) v
  have fr₅ : ∀ v, ∃ o, h₅ v = { h₃ v with tlm := o } := by
    intro v
    obtain ⟨o, ho⟩ := fr₄ v
    refine ⟨o, ?_⟩
    rw [hh₅, hh₄, markAll_apply, ho, markAll_apply]
    have := (fr₃ v).1
    split
    · revert this
      generalize h₃ v = x
      intro hx
      cases x
      simp only at hx
      subst hx
      simp only
    · rfl
  have g_fields : ∀ v, (g v).marked = decide (v ∈ nodes) ∧ (g v).adj = (h₂ v).adj ∧ (g v).tlm = (h₄ v).tlm ∧ saved g v = saved h₁ v ∧
      (g v).hess = (if v = J then some 0 else if OnTape bs v then none else (h v).hess) := by
    intro v
    obtain ⟨o, ho⟩ := fr₅ v
    have hm := fr₃ v
    have ht : (h₅ v).tlm = (h₄ v).tlm := by rw [hh₅]; simp
    refine ⟨?_, ?_, ?_, ?_, ?_⟩
    · rw [hg, markAll_apply]
      by_cases hv : v ∈ nodes
      · simp [hv]
      · simp only [hv, if_false, decide_false]
        rw [Function.update_apply]
        split
        · rename_i e; subst e; show (h₅ v).marked = false; rw [ho]; exact hm.1
        · rw [ho]; exact hm.1
    · rw [hg, markAll_adj, Function.update_apply]
      split
      · rename_i e; subst e; show (h₅ v).adj = _; rw [ho]; exact hm.2.1
      · rw [ho]; exact hm.2.1
    · rw [hg, markAll_tlm, Function.update_apply]
      split
      · rename_i e; subst e; exact ht
      · exact ht
    · rw [hg, saved_markAll, ← sv₃]
      refine saved_congr ?_ ?_ <;>
      · rw [Function.update_apply]
        split
        · rename_i e; subst e; show _ = _; simp only []; rw [ho]
        · rw [ho]
    · rw [hg, markAll_hess, Function.update_apply]
      split
      · rfl
      · rw [ho]; exact hm.2.2
  have key := tlm_curve wf cs hnd h hfl x₀ dir hind' htan true (markAll nodes true h₃)
    (by intro v; rw [saved_markAll, sv₃]; rfl)
    (by intro _ v hv; rw [markAll_apply, if_pos ((hn v).2 hv)])
    (by
      intro i
      rw [markAll_tlm, hh₃]
      have := seedTlm_tlm cs (List.ofFn dir) (resetVariables bs .hessian (resetVariables bs .tlm h₂)) hnd (by simp) i.val i.isLt
      simpa using this)
    (by
      intro w hw hc
      rw [markAll_tlm, hh₃, seedTlm_of_not_mem _ _ _ _ hc, resetHess_tlm, resetVariables_apply, if_pos hw]
      rfl)
  have sweep := hess_sweep_generic bs wf R hRc val g
    (fun b hb d hd => by rw [(g_fields d).2.2.1]; exact (key d (Or.inl ⟨b, hb, Or.inl hd⟩)).1)
    (fun b hb d hd hr => by
      rw [(g_fields d).2.2.1]
      exact ⟨(key d (Or.inl ⟨b, hb, Or.inl hd⟩)).2 hr, fun s => replayVal_of_not_reach wf cs h hfl _ _ d hr⟩)
    (fun b hb hd => by simp only [hval0]; exact hhess b hb hd) H
    (by intro s v hr; simp only [H, pre_marked, decide_eq_true ((hn v).2 hr), Bool.true_or])
    (by intro s v; simp only [H, pre_saved, val])
    (by intro v; rw [(g_fields v).1, decide_eq_true_iff, hn])
    (by intro v; rw [(g_fields v).2.2.2.1, hval0])
    (by intro b hb o ho hr; rw [(g_fields _).2.1, h2_adj])
    (by
      intro v hr
      have hH : ∀ s, (H s v).adj = if v = J then some seed else if OnTape bs v then none else (h v).adj := by
        intro s
        simp only [H, pre_adj]
        obtain ⟨c, hc⟩ := rfEval_frame bs cs (List.ofFn (x₀ + s • dir)) h v (fun c _ => hfl c)
        rw [hc]
      simp only [hH, (g_fields v).2.2.2.2]
      by_cases hJ : v = J
      · simp only [hJ, if_true, Option.getD_some]
        exact ⟨hasDerivAt_const _ _, fun _ => by trivial⟩
      · by_cases ho : OnTape bs v
        · simp only [hJ, ho, if_true, if_false, Option.getD_none]
          exact ⟨hasDerivAt_const _ _, fun _ => by trivial⟩
        · have hc : v ∈ cs := by
            cases hr with
            | base hc => exact hc
            | step hb _ _ ho' => exact absurd ⟨_, hb, Or.inr ho'⟩ ho
          rcases hon v hc with h' | h' | ⟨h1, h2⟩
          · exact absurd h' ho
          · exact absurd h' hJ
          · simp only [hJ, ho, if_false, h1, h2, Option.getD_none]
            exact ⟨hasDerivAt_const _ _, fun _ => by trivial⟩)
  refine ⟨fun s i => (evaluateAdj bs true (H s) cs[i]).adj.getD 0, fun i => (evaluateHessian bs true g cs[i]).hess.getD 0, ?_, ?_, ?_⟩
  · intro s
    have : (computeGradient bs J cs seed (rfEval bs cs (List.ofFn (x₀ + s • dir)) h)).1
        = cs.map fun c => (evaluateAdj bs true (H s) c).adj.getD 0 := by
      show cs.map (getDerivative _) = _
      apply List.map_congr_left
      intro c _
      unfold getDerivative
      show (match ((computeGradient bs J cs seed (rfEval bs cs (List.ofFn (x₀ + s • dir)) h)).2 c).adj with
        | none => 0
        | some a => a) = _
      rw [hpost, markAll_adj, markControls_adj]
      cases (evaluateAdj bs true (pre (rfEval bs cs (List.ofFn (x₀ + s • dir)) h)) c).adj <;> rfl
    rw [this]
    exact map_eq_ofFn _ _
  · rw [hres]
    have : cs.map (getHessian (markAll nodes false (evaluateHessian bs true g))) = cs.map fun c => (evaluateHessian bs true g c).hess.getD 0 := by
      apply List.map_congr_left
      intro c _
      unfold getHessian
      rw [markAll_hess]
      cases (evaluateHessian bs true g c).hess <;> rfl
    rw [this]
    exact map_eq_ofFn _ _
  · intro i
    exact (sweep cs[i] (Reach.base (List.getElem_mem _))).1

/-- **C56.** The same against the function that is differentiated: if moreover the adjoint components are right at the points `x₀ + s dir` for small `s`
(`ι` says which linear functional an adjoint value stands for), then component `i` of `rf.hessian(dir)` is the derivative at `0` of
`s ↦ ∂ᵢ F (x₀ + s dir)`, where `F x = ⟨seed, rf(x)⟩`. -/
theorem hessian_exact_blocks {bs : Blocks V V A} (wf : WF bs) (J : BV) (cs : List BV) (hnd : cs.Nodup) (h : Heap V V A)
    (hfl : ∀ v, (h v).isControl = false) (hmk : ∀ v, (h v).marked = false) (hind : IndependentControls bs cs) (seed : A) (x₀ dir : Fin cs.length → V)
    (ι : A →L[ℝ] (V →L[ℝ] ℝ))
    (hadj : ∀ᶠ s in nhds (0 : ℝ), ∀ b ∈ bs, (∃ d ∈ b.deps, Reach bs (· ∈ cs) d) →
      CorrectAdjoint (ι : A →+ (V →L[ℝ] ℝ)) b (fun j => saved (rfEval bs cs (List.ofFn (x₀ + s • dir)) h) b.deps[j])
        (fun j => Reach bs (· ∈ cs) b.deps[j]))
    (htan : ∀ b ∈ bs, (∃ d ∈ b.deps, Reach bs (· ∈ cs) d) →
      CorrectTangent b (fun j => saved (rfEval bs cs (List.ofFn x₀) h) b.deps[j]) (fun j => Reach bs (· ∈ cs) b.deps[j]))
    (hhess : ∀ b ∈ bs, (∃ d ∈ b.deps, Reach bs (· ∈ cs) d) →
      CorrectHessian b (fun j => saved (rfEval bs cs (List.ofFn x₀) h) b.deps[j]) (fun j => Reach bs (· ∈ cs) b.deps[j]))
    (hon : ∀ c ∈ cs, OnTape bs c ∨ c = J ∨ ((h c).adj = none ∧ (h c).hess = none)) :
    ∃ hess : Fin cs.length → A,
      (computeHessianOf bs J cs (List.ofFn dir) (computeGradient bs J cs seed (rfEval bs cs (List.ofFn x₀) h)).2).1 = List.ofFn hess ∧
      ∀ (i : Fin cs.length) (w : V),
        HasDerivAt (fun s : ℝ => fderiv ℝ (fun x : Fin cs.length → V => ι seed (saved (rfEval bs cs (List.ofFn x) h) J)) (x₀ + s • dir) (Pi.single i w))
          (ι (hess i) w) 0 := by
  obtain ⟨grad, hess, h1, h2, h3⟩ := hessian_eq_deriv_gradient_blocks wf J cs hnd h hfl hmk hind seed x₀ dir htan hhess hon
  refine ⟨hess, h2, fun i w => ?_⟩
  have hd : HasDerivAt (fun s => ι (grad s i) w) (ι (hess i) w) 0 :=
    ((ContinuousLinearMap.apply ℝ ℝ w).comp ι).hasFDerivAt.comp_hasDerivAt (0 : ℝ) (h3 i)
  refine hd.congr_of_eventuallyEq ?_
  filter_upwards [hadj] with s hs
  obtain ⟨gr, hg, hF⟩ := gradient_exact wf J cs hnd h hfl hind (x₀ + s • dir) (ι : A →+ (V →L[ℝ] ℝ)) seed hs
    (fun c hc => (hon c hc).imp_right fun h => h.imp_right And.left)
  have hF' : HasFDerivAt (fun x : Fin cs.length → V => ι seed (saved (rfEval bs cs (List.ofFn x) h) J))
      (∑ i, (ι (gr i)).comp (ContinuousLinearMap.proj i)) (x₀ + s • dir) := hF
  rw [hF'.fderiv]
  have e : gr = grad s := List.ofFn_injective (hg.symm.trans (h1 s))
  rw [e]
  simp only [_root_.sum_apply, ContinuousLinearMap.comp_apply, ContinuousLinearMap.proj_apply]
  rw [Finset.sum_eq_single i]
  · simp
  · intro j _ hj
    simp [Pi.single_eq_of_ne hj]
  · simp

/-- `o := d³` with hand-written derivatives (example data). -/
def cubeBlock (d o : BV) : Block ℝ ℝ ℝ where
  deps := [d]
  outs := [o]
  recomputeC := fun xs _ => match xs with
    | [x] => some (x ^ 3)
    | _ => none
  adjC := fun xs ls _ => match xs, ls with
    | [x], [some l] => some (3 * x ^ 2 * l)
    | _, _ => none
  tlmC := fun xs ts _ => match xs, ts with
    | [x], [some t] => some (3 * x ^ 2 * t)
    | _, _ => none
  hessC := fun xs ms ls _ rel => match xs, ms, ls, rel with
    | [x], [some m], [l], [(_, t)] => some (3 * x ^ 2 * m + 6 * x * t.getD 0 * l.getD 0)
    | _, _, _, _ => none

theorem cube_tangent (d o : BV) (x : Fin 1 → ℝ) (vary : Fin 1 → Prop) : CorrectTangent (cubeBlock d o) x vary where
  total := fun _ _ => rfl
  deriv := by
    refine ⟨fun _ _ => (3 * x 0 ^ 2) • ContinuousLinearMap.id ℝ ℝ, ?_, ?_⟩
    · intro i
      have h1 : HasFDerivAt (fun u : Fin 1 → ℝ => u 0) (ContinuousLinearMap.proj 0 : (Fin 1 → ℝ) →L[ℝ] ℝ) x := hasFDerivAt_apply 0 x
      have h2 := (hasDerivAt_pow 3 (x 0)).comp_hasFDerivAt x h1
      refine HasFDerivAt.hasFDerivWithinAt ?_
      refine (h2.congr_fderiv ?_ : HasFDerivAt (fun u : Fin 1 → ℝ => u 0 ^ 3) _ x)
      refine Eq.trans ?_ (Fin.sum_univ_one (fun j : Fin 1 => ((3 * x 0 ^ 2) • ContinuousLinearMap.id ℝ ℝ).comp (ContinuousLinearMap.proj j))).symm
      ext v
      simp
    · intro (t : Fin 1 → Option ℝ) ht _ i
      obtain ⟨(j : Fin 1), hj⟩ := ht
      have hj0 : j = (0 : Fin 1) := Subsingleton.elim (α := Fin 1) _ _
      subst hj0
      obtain ⟨y, hy⟩ := Option.ne_none_iff_exists'.1 hj
      refine Eq.trans ?_ (Fin.sum_univ_one (fun j : Fin 1 => ((3 * x 0 ^ 2) • ContinuousLinearMap.id ℝ ℝ) ((t j).getD 0))).symm
      change ((cubeBlock d o).tlmC [x 0] [t 0] i).getD 0 = _
      rw [hy]
      rfl

theorem cube_hessian (d o : BV) (x : Fin 1 → ℝ) (vary : Fin 1 → Prop) (hv : vary 0) : CorrectHessian (cubeBlock d o) x vary := by
  have hvar : ∀ t : Fin 1 → Option ℝ, varying vary t = [(0, t 0)] := by
    intro t
    unfold varying
    have : List.finRange 1 = [0] := rfl
    rw [this]
    simp [hv]
  have some1 : ∀ lam : Fin 1 → Option ℝ, (∃ i, lam i ≠ none) → ∃ l, lam 0 = some l := by
    rintro lam ⟨i, hi⟩
    rw [Subsingleton.elim i 0] at hi
    exact Option.ne_none_iff_exists'.1 hi
  refine ⟨?_, ?_, ?_⟩
  · intro (y : Fin 1 → ℝ) (lam : Fin 1 → Option ℝ) hl j _
    obtain ⟨l, hl⟩ := some1 lam hl
    change ((cubeBlock d o).adjC [y 0] [lam 0] j).isSome
    rw [hl]; rfl
  · intro (lam : Fin 1 → Option ℝ) (mu : Fin 1 → Option ℝ) (t : Fin 1 → Option ℝ) hm j _
    obtain ⟨m, hm⟩ := some1 mu hm
    change ((cubeBlock d o).hessC [x 0] [mu 0] [lam 0] j (varying (n := 1) vary t)).isSome
    rw [hm, hvar]; rfl
  · intro (u : ℝ → Fin 1 → ℝ) (t : Fin 1 → Option ℝ) (lam : ℝ → Fin 1 → Option ℝ) (mu : Fin 1 → Option ℝ) h0 hu _ hs hl hm j _
    obtain ⟨m, hm⟩ := some1 mu hm
    have hs : ∀ (i : Fin 1) s, (lam s i).isSome = (mu i).isSome := hs
    have hl : ∀ i : Fin 1, HasDerivAt (fun s => (lam s i).getD 0) ((mu i).getD 0) 0 := hl
    have hls : ∀ s, ∃ l, lam s 0 = some l := fun s => Option.isSome_iff_exists.1 (by rw [hs, hm]; rfl)
    choose l hl' using hls
    have hl0 : HasDerivAt l m 0 := by
      have := hl 0
      simp only [hl', hm] at this
      exact this
    have hu0 : HasDerivAt (fun s => u s 0) ((t 0).getD 0) 0 := hu (0 : Fin 1)
    have goal : HasDerivAt (fun s => 3 * (u s 0) ^ 2 * l s) (3 * (x 0) ^ 2 * m + 6 * x 0 * (t 0).getD 0 * l 0) 0 := by
      have := ((hu0.pow 2).const_mul (3 : ℝ)).mul hl0
      refine this.congr_deriv ?_
      rw [← h0]
      simp only [Pi.pow_apply]
      norm_num
      ring
    change HasDerivAt (fun s => ((cubeBlock d o).adjC [u s 0] [lam s 0] j).getD 0)
      (((cubeBlock d o).hessC [x 0] [mu 0] [lam 0 0] j (varying (n := 1) vary t)).getD 0) 0
    simp only [hl', hm, hvar]
    exact goal

/-- Functional `l ↦ (t ↦ l t)` (example data). -/
noncomputable def cubeAdj : ℝ →L[ℝ] (ℝ →L[ℝ] ℝ) := ContinuousLinearMap.mul ℝ ℝ

theorem cube_adjoint (d o : BV) (x : Fin 1 → ℝ) (vary : Fin 1 → Prop) : CorrectAdjoint (cubeAdj : ℝ →+ (ℝ →L[ℝ] ℝ)) (cubeBlock d o) x vary where
  total := fun _ _ => rfl
  deriv := by
    refine ⟨fun _ _ => (3 * x 0 ^ 2) • ContinuousLinearMap.id ℝ ℝ, ?_, ?_⟩
    · intro i
      have h1 : HasFDerivAt (fun u : Fin 1 → ℝ => u 0) (ContinuousLinearMap.proj 0 : (Fin 1 → ℝ) →L[ℝ] ℝ) x := hasFDerivAt_apply 0 x
      have h2 := (hasDerivAt_pow 3 (x 0)).comp_hasFDerivAt x h1
      refine HasFDerivAt.hasFDerivWithinAt ?_
      refine (h2.congr_fderiv ?_ : HasFDerivAt (fun u : Fin 1 → ℝ => u 0 ^ 3) _ x)
      refine Eq.trans ?_ (Fin.sum_univ_one (fun j : Fin 1 => ((3 * x 0 ^ 2) • ContinuousLinearMap.id ℝ ℝ).comp (ContinuousLinearMap.proj j))).symm
      ext v
      simp
    · intro (lam : Fin 1 → Option ℝ) ht j _
      obtain ⟨(i : Fin 1), hi⟩ := ht
      have hi0 : i = (0 : Fin 1) := Subsingleton.elim (α := Fin 1) _ _
      subst hi0
      obtain ⟨y, hy⟩ := Option.ne_none_iff_exists'.1 hi
      refine Eq.trans ?_ (Fin.sum_univ_one (fun i : Fin 1 => (optFunctional (cubeAdj : ℝ →+ (ℝ →L[ℝ] ℝ)) (lam i)).comp
        ((3 * x 0 ^ 2) • ContinuousLinearMap.id ℝ ℝ))).symm
      change optFunctional _ ((cubeBlock d o).adjC [x 0] [lam 0] j) = _
      rw [hy]
      ext
      simp [optFunctional, cubeBlock, cubeAdj]

/-- `v₁ := v₀³; v₂ := v₁³` (example data). -/
def cubeTape : Blocks ℝ ℝ ℝ := [cubeBlock 0 1, cubeBlock 1 2]

theorem cubeTape_wf : WF cubeTape where
  nodup := by simp [cubeTape, cubeBlock]
  self := by simp [cubeTape, cubeBlock]
  later := by simp [cubeTape, cubeBlock]

theorem cubeTape_reach (v : BV) : Reach cubeTape (· ∈ [0]) v ↔ v = 0 ∨ v = 1 ∨ v = 2 := by
  constructor
  · intro h
    induction h with
    | base h => simp at h; exact Or.inl h
    | step hb hd _ ho _ =>
      simp only [cubeTape, List.mem_cons, List.not_mem_nil, or_false] at hb
      rcases hb with rfl | rfl <;> simp [cubeBlock] at ho <;> simp [ho]
  · have r0 : Reach cubeTape (· ∈ [0]) 0 := Reach.base (by simp)
    have r1 : Reach cubeTape (· ∈ [0]) 1 := Reach.step (b := cubeBlock 0 1) (d := 0) (by simp [cubeTape]) (by simp [cubeBlock]) r0 (by simp [cubeBlock])
    rintro (rfl | rfl | rfl)
    · exact r0
    · exact r1
    · exact Reach.step (b := cubeBlock 1 2) (d := 1) (by simp [cubeTape]) (by simp [cubeBlock]) r1 (by simp [cubeBlock])

theorem cubeTape_dep (b : Block ℝ ℝ ℝ) (hb : b ∈ cubeTape) : ∃ d o, b = cubeBlock d o ∧ Reach cubeTape (· ∈ [0]) d := by
  simp only [cubeTape, List.mem_cons, List.not_mem_nil, or_false] at hb
  rcases hb with rfl | rfl
  · exact ⟨0, 1, rfl, (cubeTape_reach _).2 (by simp)⟩
  · exact ⟨1, 2, rfl, (cubeTape_reach _).2 (by simp)⟩

/-- Every variable holds `1` (example data). -/
def cubeHeap : Heap ℝ ℝ ℝ := fun _ => { output := 1 }

/-- The hypotheses of `hessian_exact_blocks` hold for `(v₀³)³` at every point and direction. -/
example (x₀ dir : Fin 1 → ℝ) : ∃ hess : Fin 1 → ℝ,
    (computeHessianOf cubeTape 2 [0] (List.ofFn dir) (computeGradient cubeTape 2 [0] 1 (rfEval cubeTape [0] (List.ofFn x₀) cubeHeap)).2).1
      = List.ofFn hess ∧
    ∀ (i : Fin 1) (w : ℝ), HasDerivAt (fun s : ℝ => fderiv ℝ (fun x : Fin 1 → ℝ => cubeAdj 1 (saved (rfEval cubeTape [0] (List.ofFn x) cubeHeap) 2))
      (x₀ + s • dir) (Pi.single i w)) (cubeAdj (hess i) w) 0 := by
  refine hessian_exact_blocks cubeTape_wf 2 [0] (by simp) cubeHeap (fun _ => rfl) (fun _ => rfl) ?_ 1 x₀ dir cubeAdj
    (Filter.Eventually.of_forall ?_) ?_ ?_ ?_
  · intro c hc b hb ho
    simp only [List.mem_singleton] at hc
    subst hc
    simp only [cubeTape, List.mem_cons, List.not_mem_nil, or_false] at hb
    rcases hb with rfl | rfl <;> simp [cubeBlock] at ho
  · intro s b hb _
    obtain ⟨d, o, rfl, _⟩ := cubeTape_dep b hb
    exact cube_adjoint d o _ _
  · intro b hb _
    obtain ⟨d, o, rfl, _⟩ := cubeTape_dep b hb
    exact cube_tangent d o _ _
  · intro b hb _
    obtain ⟨d, o, rfl, hr⟩ := cubeTape_dep b hb
    exact cube_hessian d o _ _ hr
  · intro c hc
    simp only [List.mem_singleton] at hc
    subst hc
    exact Or.inl ⟨cubeBlock 0 1, by simp [cubeTape], Or.inl (by simp [cubeBlock])⟩

/-- The hypotheses of `tlm_exact_blocks` hold for `(v₀³)³`. -/
example (x₀ dir : Fin 1 → ℝ) : HasDerivAt (fun s : ℝ => saved (rfEval cubeTape [0] (List.ofFn (x₀ + s • dir)) cubeHeap) 2)
    ((evaluateTlm cubeTape false (seedTlm [0] (List.ofFn dir) (resetVariables cubeTape .tlm (rfEval cubeTape [0] (List.ofFn x₀) cubeHeap))) 2).tlm.getD 0)
      0 := by
  refine (tlm_exact_blocks cubeTape_wf [0] (by simp) cubeHeap (fun _ => rfl) ?_ x₀ dir ?_ 2 ⟨cubeBlock 1 2, by simp [cubeTape], Or.inr (by simp [cubeBlock])⟩).1
  · intro c hc b hb ho
    simp only [List.mem_singleton] at hc
    subst hc
    simp only [cubeTape, List.mem_cons, List.not_mem_nil, or_false] at hb
    rcases hb with rfl | rfl <;> simp [cubeBlock] at ho
  · intro b hb _
    obtain ⟨d, o, rfl, _⟩ := cubeTape_dep b hb
    exact cube_tangent d o _ _

/-- `o := 2 d`, returning `None` instead of a zero Hessian contribution (example data). -/
noncomputable def twiceBlock (d o : BV) : Block ℝ ℝ ℝ where
  deps := [d]
  outs := [o]
  recomputeC := fun xs _ => match xs with
    | [x] => some (2 * x)
    | _ => none
  adjC := fun _ ls _ => match ls with
    | [some l] => some (2 * l)
    | _ => none
  tlmC := fun _ ts _ => match ts with
    | [some t] => some (2 * t)
    | _ => none
  hessC := fun _ ms _ _ _ => match ms with
    | [some m] => if m = 0 then none else some (2 * m)
    | _ => none

/-- **The components must not be `None`.** A linear block that returns `None` where its Hessian contribution is zero has the right values, as
`evaluate_hessian` treats `None` as "nothing to add".  But every block before it is then skipped, because `evaluate_hessian` looks only at the Hessian
values of the outputs: for `2 v₀³` the Hessian at `x` in direction `t` comes out as `0`, not `12 x t`. -/
theorem none_for_zero_hessian_wrong (x t : ℝ) :
    (computeHessianOf [cubeBlock 0 1, twiceBlock 1 2] 2 [0] [t]
      (computeGradient [cubeBlock 0 1, twiceBlock 1 2] 2 [0] 1 (rfEval [cubeBlock 0 1, twiceBlock 1 2] [0] [x] cubeHeap)).2).1 = [0] ∧
    (∀ y : ℝ, (computeGradient [cubeBlock 0 1, twiceBlock 1 2] 2 [0] 1 (rfEval [cubeBlock 0 1, twiceBlock 1 2] [0] [y] cubeHeap)).1 = [3 * y ^ 2 * (2 * 1)]) := by
  refine ⟨?_, fun y => rfl⟩
  generalize (computeGradient [cubeBlock 0 1, twiceBlock 1 2] 2 [0] 1 (rfEval [cubeBlock 0 1, twiceBlock 1 2] [0] [x] cubeHeap)).2 = h
  unfold computeHessianOf
  dsimp only
  set nodes := findRelevantNodes [cubeBlock 0 1, twiceBlock 1 2] [0] with hn
  set h₁ := seedTlm [0] [t] (resetVariables [cubeBlock 0 1, twiceBlock 1 2] .hessian (resetVariables [cubeBlock 0 1, twiceBlock 1 2] .tlm h)) with hh₁
  set h₂ := markAll nodes false (evaluateTlm [cubeBlock 0 1, twiceBlock 1 2] true (markAll nodes true h₁)) with hh₂
  set g := markAll nodes true (Function.update h₂ 2 { h₂ 2 with hess := some 0 }) with hg
  have hh : ∀ v : BV, v = 0 ∨ v = 1 → (g v).hess = none := by
    intro v hv
    have h2 : v ≠ 2 := by rcases hv with rfl | rfl <;> decide
    rw [hg, markAll_hess, Function.update_of_ne h2, hh₂, markAll_hess]
    obtain ⟨a, ha⟩ := evaluateTlm_frame [cubeBlock 0 1, twiceBlock 1 2] true (markAll nodes true h₁) v
    rw [ha]
    show (markAll nodes true h₁ v).hess = none
    rw [markAll_hess, hh₁]
    obtain ⟨o, ho⟩ := seedTlm_frame [0] [t] (resetVariables [cubeBlock 0 1, twiceBlock 1 2] .hessian
      (resetVariables [cubeBlock 0 1, twiceBlock 1 2] .tlm h)) v
    rw [ho]
    show (resetVariables [cubeBlock 0 1, twiceBlock 1 2] .hessian (resetVariables [cubeBlock 0 1, twiceBlock 1 2] .tlm h) v).hess = none
    rw [resetVariables_apply, if_pos]
    · rfl
    · refine ⟨cubeBlock 0 1, by simp, ?_⟩
      simp only [cubeBlock, List.mem_singleton]
      exact hv
  have hJ : (g 2).hess = some 0 := by
    rw [hg, markAll_hess, Function.update_self]
  have ht : ∀ v : BV, v = 0 ∨ v = 1 → ((twiceBlock 1 2).evaluateHessian true g v).hess = none := by
    intro v hv
    rw [Block.evaluateHessian_apply]
    show (twiceBlock 1 2).hessAfter true g v = none
    unfold Block.hessAfter
    have e : ((twiceBlock 1 2).outs.map fun o => (g o).hess) = [some 0] := by
      show [(g 2).hess] = _
      rw [hJ]
    rw [e]
    have e2 : ∀ a b c d, (twiceBlock 1 2).hessC a [some 0] b c d = none := by
      intro a b c d
      show (if (0 : ℝ) = 0 then none else some (2 * 0)) = none
      rw [if_pos rfl]
    simp only [e2, hh v hv]
    have e3 : ∀ l : List (BV × Nat), l.foldl (fun (o : Option ℝ) (_ : BV × Nat) => accum o none) none = none := by
      intro l
      induction l with
      | nil => rfl
      | cons p l ih => exact ih
    rw [e3]
    simp
  rw [evaluateHessian_cons, evaluateHessian_cons]
  show [getHessian _ 0] = [0]
  unfold getHessian
  rw [markAll_hess, Block.evaluateHessian_apply]
  have e : (cubeBlock 0 1).hessAfter true ((twiceBlock 1 2).evaluateHessian true g) 0 = none := by
    unfold Block.hessAfter
    rw [if_pos, ht 0 (Or.inl rfl)]
    show [((twiceBlock 1 2).evaluateHessian true g 1).hess].all Option.isNone = true
    rw [ht 1 (Or.inr rfl)]
    rfl
  have e' : evaluateHessian [] true g = g := rfl
  rw [e']
  dsimp only
  rw [e]

end Pyadjoint
