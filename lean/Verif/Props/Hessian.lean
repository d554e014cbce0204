import Verif.Proofs.HessSweep
import Verif.Proofs.HessSymm
import Verif.Props.Tangent

/-!
# C06: Hessian actions
-/

namespace Pyadjoint

theorem FBlock.Smooth2.eventually_smooth {b : FBlock} {val : ℝ → BV → ℝ} {vary : BV → Prop}
    (h : b.Smooth2 (val 0) vary)
    (hc : ∀ d ∈ b.deps, ContinuousAt (fun s => val s d) 0)
    (hconst : ∀ d ∈ b.deps, ¬ vary d → ∀ s, val s d = val 0 d) :
    ∀ᶠ s in nhds (0 : ℝ), b.Smooth (val s) vary := by
  cases b with
  | un op a o =>
    have ha := hc a (by simp [deps])
    cases op
    case log => exact ha.eventually (lt_mem_nhds (show 0 < val 0 a from h))
    all_goals exact Filter.Eventually.of_forall fun _ => trivial
  | bin op a b o =>
    have ha := hc a (by simp [deps])
    have hb := hc b (by simp [deps])
    cases op
    case div => exact hb.eventually (isOpen_ne.mem_nhds (show val 0 b ≠ 0 from h))
    case pow =>
      rcases h with h | ⟨h1, n, h2, h3⟩
      · exact (ha.eventually (lt_mem_nhds h)).mono fun s hs => Or.inl hs
      · have e : ∀ s, val s b = n := fun s => by rw [hconst b (by simp [deps]) h1 s, h2]
        rcases h3 with h3 | h3
        · exact (ha.eventually (isOpen_ne.mem_nhds h3)).mono fun s hs =>
            Or.inr ⟨h1, n, e s, Or.inl hs⟩
        · exact Filter.Eventually.of_forall fun s => Or.inr ⟨h1, n, e s, Or.inr (by omega)⟩
    case min =>
      exact ((ha.sub hb).eventually (isOpen_ne.mem_nhds (sub_ne_zero.2 (show val 0 a ≠ val 0 b from h)))).mono
        fun s hs => sub_ne_zero.1 hs
    case max =>
      exact ((ha.sub hb).eventually (isOpen_ne.mem_nhds (sub_ne_zero.2 (show val 0 a ≠ val 0 b from h)))).mono
        fun s hs => sub_ne_zero.1 hs
    all_goals exact Filter.Eventually.of_forall fun _ => trivial

/-- Adjoint value of `v` left by `rf(x)`, `rf.derivative(adj_input)`. -/
noncomputable def adjointAt (t : FTape) (J : BV) (cs : List BV) (scale adjInput : ℝ) (h : FHeap)
    (x : Fin cs.length → ℝ) (v : BV) : ℝ :=
  ((rfDerivative t.blocks J cs scale adjInput (rfEval t.blocks cs (List.ofFn x) h)).2 v).adj.getD 0

/-- The Hessian action is the derivative of the computed gradient. -/
theorem hessian_eq_deriv_gradient (t : FTape) (wf : WF t.blocks) (J : BV) (cs : List BV)
    (hnd : cs.Nodup) (h : FHeap) (hfl : ∀ v, (h v).isControl = false)
    (hind : IndependentControls t.blocks cs) (scale adjInput : ℝ) (x₀ dir : Fin cs.length → ℝ)
    (hsmooth : ∀ b ∈ t, (∃ d ∈ b.deps, Reach t.blocks (· ∈ cs) d) →
      b.Smooth2 (saved (rfEval t.blocks cs (List.ofFn x₀) h)) (Reach t.blocks (· ∈ cs)))
    (hon : ∀ c ∈ cs, OnTape t.blocks c ∨ c = J ∨ ((h c).adj = none ∧ (h c).hess = none))
    (hgood : ∀ b ∈ t, (∃ d ∈ b.deps, Reach t.blocks (· ∈ cs) d) →
      b.NoDefect (saved (rfEval t.blocks cs (List.ofFn x₀) h))
        (fun v => deriv (fun s : ℝ => saved (rfEval t.blocks cs (List.ofFn (x₀ + s • dir)) h) v) 0)
        (adjointAt t J cs scale adjInput h x₀ b.out)
        (deriv (fun s : ℝ => adjointAt t J cs scale adjInput h (x₀ + s • dir) b.out) 0))
    (hs : List ℝ) (h' : FHeap)
    (hok : t.computeHessian J cs (List.ofFn dir)
      (rfDerivative t.blocks J cs scale adjInput (rfEval t.blocks cs (List.ofFn x₀) h)).2 = .ok (hs, h')) :
    ∃ hess : Fin cs.length → ℝ, hs = List.ofFn hess ∧
      ∀ i : Fin cs.length,
        HasDerivAt (fun s : ℝ => adjointAt t J cs scale adjInput h (x₀ + s • dir) cs[i]) (hess i) 0 := by
  classical
  set R := Reach t.blocks (· ∈ cs) with hRdef
  set seed := adjInput * scale with hseed
  set nodes := findRelevantNodes t.blocks cs with hnodes
  have hn : ∀ v, v ∈ nodes ↔ R v := fun v => findRelevantNodes_iff wf cs v
  have hind' : ∀ b ∈ t, (∃ d ∈ b.deps, R d) → b.out ∉ cs := by
    intro b hb ⟨d, hd, hr⟩ hc
    exact hind b.out hc b.toBlock (List.mem_map.2 ⟨b, hb, rfl⟩) ((b.mem_outs _).2 rfl) d
      (by rw [b.toBlock_deps]; exact hd) hr
  have hRc : ∀ b ∈ t, (∃ d ∈ b.deps, R d) → R b.out := by
    intro b hb ⟨d, hd, hr⟩
    exact Reach.step (b := b.toBlock) (List.mem_map.2 ⟨b, hb, rfl⟩) (by rw [b.toBlock_deps]; exact hd) hr
      ((b.mem_outs _).2 rfl)
  obtain ⟨D, hD, hD0, hDc, hDb⟩ := FTape.deriv wf cs hnd h hfl x₀ hind'
    (fun b hb hd => (hsmooth b hb hd).smooth)
  let val : ℝ → BV → ℝ := fun s v => saved (rfEval t.blocks cs (List.ofFn (x₀ + s • dir)) h) v
  have e0 : x₀ + (0 : ℝ) • dir = x₀ := by simp
  have hval0 : val 0 = saved (rfEval t.blocks cs (List.ofFn x₀) h) := by
    funext v; simp only [val, e0]
  have hvd : ∀ v, HasDerivAt (fun s => val s v) (D v dir) 0 := by
    intro v
    have hline : HasDerivAt (fun s : ℝ => x₀ + s • dir) dir 0 := by
      simpa using ((hasDerivAt_id (0 : ℝ)).smul_const dir).const_add x₀
    have := hD v
    rw [← e0] at this
    exact this.comp_hasDerivAt (0 : ℝ) hline
  have hconst : ∀ d, ¬ R d → ∀ s, val s d = val 0 d := fun d hd s =>
    replayVal_of_not_reach wf cs h hfl _ _ d hd
  -- the heap before the adjoint sweep
  let pre : FHeap → FHeap := fun h =>
    let h := resetVariables t.blocks .adjoint h
    let h := Function.update h J { h J with adj := some seed }
    markControls cs true (markAll nodes true h)
  have hpost : ∀ h : FHeap, (rfDerivative t.blocks J cs scale adjInput h).2
      = markAll nodes false (markControls cs false (evaluateAdj t.blocks true (pre h))) := fun h => rfl
  let H : ℝ → FHeap := fun s => pre (rfEval t.blocks cs (List.ofFn (x₀ + s • dir)) h)
  have hadj : ∀ s v, adjointAt t J cs scale adjInput h (x₀ + s • dir) v
      = (evaluateAdj t.blocks true (H s) v).adj.getD 0 := by
    intro s v
    unfold adjointAt
    rw [hpost]
    simp [H]
  have hadj0 : ∀ v, adjointAt t J cs scale adjInput h x₀ v
      = (evaluateAdj t.blocks true (H 0) v).adj.getD 0 := by
    intro v; rw [← hadj, e0]
  -- unfold the Hessian computation
  set h₁ := rfEval t.blocks cs (List.ofFn x₀) h with hh₁
  set h₂ := (rfDerivative t.blocks J cs scale adjInput h₁).2 with hh₂
  unfold FTape.computeHessian at hok
  simp only [] at hok
  rw [← hnodes] at hok
  set h₃ := seedTlm cs (List.ofFn dir) (resetVariables t.blocks .hessian
    (resetVariables t.blocks .tlm h₂)) with hh₃
  set h₄ := t.evaluateTlm true (markAll nodes true h₃) with hh₄
  set h₅ := markAll nodes false h₄ with hh₅
  set g := markAll nodes true (Function.update h₅ J { h₅ J with hess := some 0 }) with hg
  cases hev : t.evaluateHessian true g with
  | error e => rw [hev] at hok; cases hok
  | ok g' =>
  rw [hev] at hok
  simp only [Except.ok.injEq, Prod.mk.injEq] at hok
  obtain ⟨hok1, hok2⟩ := hok
  -- facts about the heaps
  have fr₁ : ∀ v, ∃ c, h₁ v = { h v with ckpt := c } := fun v =>
    rfEval_frame t.blocks cs _ h v (fun c _ => hfl c)
  have pre_marked : ∀ (k : FHeap) v, (pre k v).marked = (decide (v ∈ nodes) || (k v).marked) := by
    intro k v
    simp only [pre, markControls_marked, markAll_apply]
    by_cases hv : v ∈ nodes
    · simp [hv]
    · simp only [hv, if_false, decide_false, Bool.false_or]
      rw [Function.update_apply]; split <;> simp_all
  have pre_saved : ∀ (k : FHeap) v, saved (pre k) v = saved k v := by
    intro k v
    simp only [pre, saved_markControls, saved_markAll]
    refine Eq.trans (saved_congr ?_ ?_) (saved_resetVariables t.blocks .adjoint k v) <;>
      (rw [Function.update_apply]; split <;> simp_all)
  have pre_adj : ∀ (k : FHeap) v, (pre k v).adj
      = if v = J then some seed else if OnTape t.blocks v then none else (k v).adj := by
    intro k v
    simp only [pre, markControls_adj, markAll_adj]
    rw [Function.update_apply]
    split
    · rfl
    · rw [resetVariables_apply]; split <;> rfl
  have pre_hess : ∀ (k : FHeap) v, (pre k v).hess = (k v).hess := by
    intro k v
    simp only [pre, markControls_hess, markAll_hess]
    rw [Function.update_apply]; split <;> simp_all
  have h2_saved : ∀ v, saved h₂ v = saved h₁ v := by
    intro v; rw [hh₂, hpost]; simp [pre_saved]
  have h2_adj : ∀ v, (h₂ v).adj = (evaluateAdj t.blocks true (H 0) v).adj := by
    intro v
    have : H 0 = pre h₁ := by simp only [H, e0, hh₁]
    rw [this, hh₂, hpost]; simp
  have h2_hess : ∀ v, (h₂ v).hess = (h v).hess := by
    intro v; rw [hh₂, hpost]; simp only [markAll_hess, markControls_hess, evaluateAdj_hess, pre_hess]
    obtain ⟨c, hc⟩ := fr₁ v; rw [hc]
  have fr₃ : ∀ v, (h₃ v).adj = (h₂ v).adj ∧
      (h₃ v).hess = (if OnTape t.blocks v then none else (h v).hess) := by
    intro v
    obtain ⟨o, ho⟩ := seedTlm_frame cs (List.ofFn dir) (resetVariables t.blocks .hessian
      (resetVariables t.blocks .tlm h₂)) v
    rw [hh₃, ho]
    refine ⟨by simp, ?_⟩
    show (resetVariables t.blocks .hessian (resetVariables t.blocks .tlm h₂) v).hess = _
    rw [resetVariables_apply]
    split
    · rfl
    · rw [resetTlm_hess, h2_hess]
  have sv₃ : ∀ v, saved h₃ v = saved h₁ v := by intro v; rw [hh₃]; simp [h2_saved]
  have hself := FTape.WF_self wf
  have fr₄ := fun v => FTape.evaluateTlm_frame t true (markAll nodes true h₃) v hself
  have fr₅ : ∀ v, ∃ o m, h₅ v = { h₃ v with tlm := o, marked := m } := by
    intro v
    obtain ⟨o, ho⟩ := fr₄ v
    rw [hh₅, hh₄, markAll_apply, ho, markAll_apply]
    split
    · exact ⟨o, false, rfl⟩
    · exact ⟨o, _, rfl⟩
  have g_fields : ∀ v, (v ∈ nodes → (g v).marked = true) ∧ (g v).adj = (h₂ v).adj ∧
      (g v).tlm = (h₄ v).tlm ∧ saved g v = saved h₁ v ∧
      (g v).hess = (if v = J then some 0 else if OnTape t.blocks v then none else (h v).hess) := by
    intro v
    obtain ⟨o, mk, ho⟩ := fr₅ v
    have hm := fr₃ v
    have ht : (h₅ v).tlm = (h₄ v).tlm := by rw [hh₅]; simp
    refine ⟨?_, ?_, ?_, ?_, ?_⟩
    · intro hv
      rw [hg, markAll_apply, if_pos hv]
    · rw [hg, markAll_adj, Function.update_apply]
      split
      · rename_i e; subst e; show (h₅ v).adj = _; rw [ho]; exact hm.1
      · rw [ho]; exact hm.1
    · rw [hg, markAll_tlm, Function.update_apply]
      split
      · rename_i e; subst e; exact ht
      · exact ht
    · rw [hg, saved_markAll, ← sv₃]
      refine saved_congr ?_ ?_ <;>
      · rw [Function.update_apply]
        split
        · rename_i e; subst e; show _ = _; simp only []; rw [ho]
        · rw [ho]
    · rw [hg, markAll_hess, Function.update_apply]
      split
      · rfl
      · rw [ho]; exact hm.2
  -- tangents
  have key := FTape.tlm_exact_aux wf cs (saved h₁) (fun v => D v dir) (fun v => D v dir)
    (by intro v hv; simp [hD0 v hv]) (fun c hc => rfl)
    (by
      intro b hb hd
      have e := hDb b hb hd
      cases b <;> simp [e, FBlock.lin, h₁])
    hind' true (markAll nodes true h₃)
    (by intro v; simp [sv₃])
    (by intro v hv; rw [markAll_apply, if_pos ((hn v).2 hv)]; rfl)
    (by
      intro c hc
      obtain ⟨i, hi, rfl⟩ := List.getElem_of_mem hc
      rw [markAll_tlm, hh₃, seedTlm_tlm _ _ _ hnd (by simp) i hi]
      have := hDc ⟨i, hi⟩
      simp only [Fin.getElem_fin] at this
      rw [this]; simp)
    (by
      intro w hw hc
      rw [markAll_tlm, hh₃, seedTlm_of_not_mem _ _ _ _ hc, resetHess_tlm, resetVariables_apply, if_pos hw]
      rfl)
  have sweep := FTape.hess_sweep t wf R hRc val (fun v => D v dir)
    (fun b hb d hd => hvd d)
    (fun b hb d hd hr => ⟨hconst d hr, by simp [hD0 d hr]⟩)
    (by rw [hval0]; exact hsmooth) H
    (by intro s v hr; simp only [H, pre_marked, decide_eq_true ((hn v).2 hr), Bool.true_or])
    (by intro s v; simp only [H, pre_saved, val]) g g'
    (by intro v hr; exact (g_fields v).1 ((hn v).2 hr))
    (by intro v; rw [(g_fields v).2.2.2.1, hval0])
    (by
      intro b hb d hd
      rw [(g_fields d).2.2.1, hh₄]
      exact key d (Or.inl ⟨b.toBlock, List.mem_map.2 ⟨b, hb, rfl⟩, Or.inl (by rw [b.toBlock_deps]; exact hd)⟩))
    (by intro b hb hr; rw [(g_fields _).2.1, h2_adj])
    (by
      intro v hr
      have hH : ∀ s, (H s v).adj = if v = J then some seed else if OnTape t.blocks v then none else (h v).adj := by
        intro s
        simp only [H, pre_adj]
        obtain ⟨c, hc⟩ := rfEval_frame t.blocks cs (List.ofFn (x₀ + s • dir)) h v (fun c _ => hfl c)
        rw [hc]
      simp only [hH, (g_fields v).2.2.2.2]
      by_cases hJ : v = J
      · simp only [hJ, if_true, Option.getD_some]
        exact ⟨hasDerivAt_const _ _, fun _ => by trivial⟩
      · by_cases ho : OnTape t.blocks v
        · simp only [hJ, ho, if_true, if_false, Option.getD_none]
          exact ⟨hasDerivAt_const _ _, fun _ => by trivial⟩
        · have hc : v ∈ cs := by
            cases hr with
            | base hc => exact hc
            | step hb _ _ ho' => exact absurd ⟨_, hb, Or.inr ho'⟩ ho
          rcases hon v hc with h' | h' | ⟨h1, h2⟩
          · exact absurd h' ho
          · exact absurd h' hJ
          · simp only [hJ, ho, if_false, h1, h2, Option.getD_none]
            exact ⟨hasDerivAt_const _ _, fun _ => by trivial⟩)
    (by
      intro b hb hd
      have := hgood b hb hd
      simp only [hadj, hadj0] at this
      rw [hval0]
      have etl : (fun v => deriv (fun s : ℝ => saved (rfEval t.blocks cs (List.ofFn (x₀ + s • dir)) h) v) 0)
          = fun v => D v dir := funext fun v => (hvd v).deriv
      rw [etl] at this
      exact this)
    hev
  refine ⟨fun i => (g' cs[i]).hess.getD 0, ?_, ?_⟩
  · rw [← hok1]
    have : cs.map (getHessian (markAll nodes false g')) = cs.map fun c => (g' c).hess.getD 0 := by
      apply List.map_congr_left
      intro c _
      unfold getHessian
      rw [markAll_hess]
      cases (g' c).hess <;> rfl
    rw [this]
    exact map_eq_ofFn _ _
  · intro i
    simp only [hadj]
    exact (sweep cs[i] (Reach.base (List.getElem_mem _))).1

/-- **C06, part.** For every `AdjFloat` tape, functional, list of distinct independent controls, point `x₀`
and direction: after `rf(x₀)` and `rf.derivative(adj_input)`, if `rf.hessian(dir)` returns, then its `i`-th
component is the derivative at `0` of `s ↦ ∂ᵢ F (x₀ + s dir)` where `F = adj_input · rf`; provided every
operation depending on a control is twice differentiable at its operands and no relevant
`exp`, `log` or `*` is affected by the defects of its Hessian formula (`NoDefect`).

Missing for the full claim: the last proviso, which cannot be dropped (`exp_hessian_wrong`,
`log_hessian_wrong`, `mul_hessian_wrong`), and that the call returns (`hessian_raises`,
`hessian_returns_partial`). -/
theorem hessian_exact_partial (t : FTape) (wf : WF t.blocks) (J : BV) (cs : List BV)
    (hnd : cs.Nodup) (h : FHeap) (hfl : ∀ v, (h v).isControl = false)
    (hind : IndependentControls t.blocks cs) (scale adjInput : ℝ) (x₀ dir : Fin cs.length → ℝ)
    (hsmooth : ∀ b ∈ t, (∃ d ∈ b.deps, Reach t.blocks (· ∈ cs) d) →
      b.Smooth2 (saved (rfEval t.blocks cs (List.ofFn x₀) h)) (Reach t.blocks (· ∈ cs)))
    (hon : ∀ c ∈ cs, OnTape t.blocks c ∨ c = J ∨ ((h c).adj = none ∧ (h c).hess = none))
    (hgood : ∀ b ∈ t, (∃ d ∈ b.deps, Reach t.blocks (· ∈ cs) d) →
      b.NoDefect (saved (rfEval t.blocks cs (List.ofFn x₀) h))
        (fun v => deriv (fun s : ℝ => saved (rfEval t.blocks cs (List.ofFn (x₀ + s • dir)) h) v) 0)
        (adjointAt t J cs scale adjInput h x₀ b.out)
        (deriv (fun s : ℝ => adjointAt t J cs scale adjInput h (x₀ + s • dir) b.out) 0))
    (hs : List ℝ) (h' : FHeap)
    (hok : t.computeHessian J cs (List.ofFn dir)
      (rfDerivative t.blocks J cs scale adjInput (rfEval t.blocks cs (List.ofFn x₀) h)).2 = .ok (hs, h')) :
    ∃ hess : Fin cs.length → ℝ, hs = List.ofFn hess ∧
      ∀ i : Fin cs.length,
        HasDerivAt (fun s : ℝ => fderiv ℝ (fun x => adjInput * rfValue t J cs scale h x)
          (x₀ + s • dir) (Pi.single i 1)) (hess i) 0 := by
  obtain ⟨hess, h1, h2⟩ := hessian_eq_deriv_gradient t wf J cs hnd h hfl hind scale adjInput x₀ dir
    hsmooth hon hgood hs h' hok
  refine ⟨hess, h1, fun i => (h2 i).congr_of_eventuallyEq ?_⟩
  have hind' : ∀ b ∈ t, (∃ d ∈ b.deps, Reach t.blocks (· ∈ cs) d) → b.out ∉ cs := by
    intro b hb ⟨d, hd, hr⟩ hc
    exact hind b.out hc b.toBlock (List.mem_map.2 ⟨b, hb, rfl⟩) ((b.mem_outs _).2 rfl) d
      (by rw [b.toBlock_deps]; exact hd) hr
  obtain ⟨D, hD, -⟩ := FTape.deriv wf cs hnd h hfl x₀ hind' (fun b hb hd => (hsmooth b hb hd).smooth)
  have e0 : x₀ + (0 : ℝ) • dir = x₀ := by simp
  have hcont : ∀ v, ContinuousAt
      (fun s : ℝ => saved (rfEval t.blocks cs (List.ofFn (x₀ + s • dir)) h) v) 0 := by
    intro v
    have hc := (hD v).continuousAt
    rw [← e0] at hc
    exact ContinuousAt.comp (f := fun s : ℝ => x₀ + s • dir) hc (by fun_prop)
  have hev : ∀ᶠ s in nhds (0 : ℝ), ∀ b ∈ t, (∃ d ∈ b.deps, Reach t.blocks (· ∈ cs) d) →
      b.Smooth (saved (rfEval t.blocks cs (List.ofFn (x₀ + s • dir)) h)) (Reach t.blocks (· ∈ cs)) := by
    refine (Filter.eventually_all_finite (List.finite_toSet t)).2 ?_
    intro b hb
    by_cases hd : ∃ d ∈ b.deps, Reach t.blocks (· ∈ cs) d
    · have := (hsmooth b hb hd)
      have hs2 : b.Smooth2 ((fun (s : ℝ) v => saved (rfEval t.blocks cs (List.ofFn (x₀ + s • dir)) h) v) 0)
          (Reach t.blocks (· ∈ cs)) := by simp only [e0]; exact this
      exact (hs2.eventually_smooth (fun d _ => hcont d)
        (fun d _ hr s => replayVal_of_not_reach wf cs h hfl _ _ d hr)).mono fun s hs _ => hs
    · exact Filter.Eventually.of_forall fun s hd' => absurd hd' hd
  filter_upwards [hev] with s hs
  obtain ⟨grad, hg, hF⟩ := gradient_exact_adjfloat t wf J cs hnd h hfl hind scale adjInput (x₀ + s • dir) hs
    (fun c hc => (hon c hc).imp_right fun h => h.imp_right And.left) _ _
    (by simp only [rfCall, List.length_ofFn, ne_eq, not_true_eq_false, if_false]; rfl)
  rw [hF.fderiv]
  have e1 : ∀ i, adjointAt t J cs scale adjInput h (x₀ + s • dir) cs[i] = grad i := by
    intro i
    have e : (rfDerivative t.blocks J cs scale adjInput
      (rfEval t.blocks cs (List.ofFn (x₀ + s • dir)) h)).1 = List.ofFn fun i : Fin cs.length =>
        adjointAt t J cs scale adjInput h (x₀ + s • dir) cs[i] := by
      have : (rfDerivative t.blocks J cs scale adjInput
        (rfEval t.blocks cs (List.ofFn (x₀ + s • dir)) h)).1
        = cs.map (adjointAt t J cs scale adjInput h (x₀ + s • dir)) := by
        simp only [rfDerivative, computeGradient]
        apply List.map_congr_left
        intro c _
        unfold adjointAt getDerivative
        simp only [rfDerivative, computeGradient]
        split <;> simp_all
      rw [this]; exact map_eq_ofFn _ _
    rw [e] at hg
    exact congrFun (List.ofFn_injective hg) i
  rw [e1]
  simp [Pi.single_apply]

/-- Operations whose Hessian formula is right. -/
def FBlock.HessSafe : FBlock → Prop
  | un .exp _ _ => False
  | un .log _ _ => False
  | bin .mul a b _ => a = b
  | _ => True

theorem FBlock.HessSafe.noDefect {b : FBlock} (h : b.HessSafe) (val tl : BV → ℝ) (l ld : ℝ) :
    b.NoDefect val tl l ld := by
  cases b with
  | un op a o => cases op <;> trivial
  | bin op a b o =>
    cases op <;> first | trivial | (obtain rfl : a = b := h; simp [NoDefect])

/-- C06 for tapes whose relevant operations are `+ - / ** neg min max` and squares `a * a`. -/
theorem hessian_exact_safe (t : FTape) (wf : WF t.blocks) (J : BV) (cs : List BV)
    (hnd : cs.Nodup) (h : FHeap) (hfl : ∀ v, (h v).isControl = false)
    (hind : IndependentControls t.blocks cs) (scale adjInput : ℝ) (x₀ dir : Fin cs.length → ℝ)
    (hsmooth : ∀ b ∈ t, (∃ d ∈ b.deps, Reach t.blocks (· ∈ cs) d) →
      b.Smooth2 (saved (rfEval t.blocks cs (List.ofFn x₀) h)) (Reach t.blocks (· ∈ cs)))
    (hon : ∀ c ∈ cs, OnTape t.blocks c ∨ c = J ∨ ((h c).adj = none ∧ (h c).hess = none))
    (hsafe : ∀ b ∈ t, (∃ d ∈ b.deps, Reach t.blocks (· ∈ cs) d) → b.HessSafe)
    (hs : List ℝ) (h' : FHeap)
    (hok : t.computeHessian J cs (List.ofFn dir)
      (rfDerivative t.blocks J cs scale adjInput (rfEval t.blocks cs (List.ofFn x₀) h)).2 = .ok (hs, h')) :
    ∃ hess : Fin cs.length → ℝ, hs = List.ofFn hess ∧
      ∀ i : Fin cs.length,
        HasDerivAt (fun s : ℝ => fderiv ℝ (fun x => adjInput * rfValue t J cs scale h x)
          (x₀ + s • dir) (Pi.single i 1)) (hess i) 0 :=
  hessian_exact_partial t wf J cs hnd h hfl hind scale adjInput x₀ dir hsmooth hon
    (fun b hb hd => (hsafe b hb hd).noDefect _ _ _ _) hs h' hok

/-! ### The Hessian call returns -/

/-- `/` and `**`, whose Hessian methods use the adjoint value of the output unconditionally. -/
def FBlock.NeedsAdj : FBlock → Prop
  | bin .div _ _ _ => True
  | bin .pow _ _ _ => True
  | _ => False

theorem evaluateHessianDefault_total (deps : List BV) (o : BV) (m : Bool)
    (comp : List ℝ → ℝ → Option ℝ → Nat → List (Nat × Option ℝ) → Except FBlock.PyErr ℝ)
    (g : FHeap) (hc : ∀ i hin l idx, ∃ x, comp i hin l idx ((relevant g m deps).map fun q => (q.2, (g q.1).tlm)) = .ok x) :
    ∃ g', FBlock.evaluateHessianDefault deps o m comp g = .ok g' := by
  unfold FBlock.evaluateHessianDefault
  split
  · exact ⟨_, rfl⟩
  · simp only []
    rename_i hin _
    generalize (relevant g m deps).map (fun q => (q.2, (g q.1).tlm)) = r at hc ⊢
    generalize relevant g m deps = l
    have : ∀ (l : List (BV × Nat)) (g1 : FHeap), ∃ g',
        (List.foldlM (m := Except FBlock.PyErr) (fun (h' : FHeap) (p : BV × Nat) => do
          let v ← comp (deps.map (saved g)) hin (g o).adj p.2 r
          pure (addHess h' p.1 v)) g1 l) = .ok g' := by
      intro l
      induction l with
      | nil => intro g1; exact ⟨_, rfl⟩
      | cons p l ih =>
        intro g1
        obtain ⟨x, hx⟩ := hc (deps.map (saved g)) hin (g o).adj p.2
        obtain ⟨g', hg'⟩ := ih (addHess g1 p.1 x)
        exact ⟨g', by rw [List.foldlM_cons, hx]; exact hg'⟩
    exact this l g

/-- `MulBlock.evaluate_hessian_component` needs no adjoint value if there is no tangent. -/
theorem mulHessC_no_tangent (i : List ℝ) (hin : ℝ) (l : Option ℝ) (idx : Nat) (rel : List (Nat × Option ℝ))
    (hr : ∀ q ∈ rel, q.2 = none) : ∃ x, FBlock.mulHessC i hin l idx rel = .ok x := by
  unfold FBlock.mulHessC
  have : ∀ (rel : List (Nat × Option ℝ)) (acc : ℝ × Nat), (∀ q ∈ rel, q.2 = none) → ∃ r,
      (List.foldlM (m := Except FBlock.PyErr) (fun (acc : ℝ × Nat) (q : Nat × Option ℝ) =>
        match decide (q.1 ≠ idx), q.2 with
        | true, some t => do
          let a ← FBlock.needFloat l
          pure (a * t, q.1)
        | _, _ => pure (acc.1, q.1)) acc rel) = .ok r := by
    intro rel
    induction rel with
    | nil => intro acc _; exact ⟨_, rfl⟩
    | cons q rel ih =>
      intro acc h
      obtain ⟨a, b⟩ := q
      obtain rfl : b = none := h (a, b) (by simp)
      obtain ⟨r, hr⟩ := ih (acc.1, a) fun q hq => h q (by simp [hq])
      refine ⟨r, ?_⟩
      rw [List.foldlM_cons]
      cases decide (a ≠ idx) <;> exact hr
  obtain ⟨r, hr⟩ := this rel (0, if idx = 1 then 0 else 1) hr
  refine ⟨r.1 + hin * i.getD r.2 0, ?_⟩
  simp only []
  erw [hr]
  rfl

theorem FBlock.evaluateHessian_no_tangent_ok (blk : FBlock) (g : FHeap)
    (hm : ∀ d ∈ blk.deps, (g d).tlm = none) (hn : ¬ blk.NeedsAdj) :
    ∃ g', blk.evaluateHessian true g = .ok g' := by
  cases blk with
  | un op a o =>
    cases op
    case neg => simp only [evaluateHessian]; split <;> exact ⟨_, rfl⟩
    all_goals
      simp only [evaluateHessian]
      exact evaluateHessianDefault_total _ _ _ _ _ fun _ _ _ _ => ⟨_, rfl⟩
  | bin op a b o =>
    cases op
    case sub => simp only [evaluateHessian]; split <;> exact ⟨_, rfl⟩
    case div => exact absurd trivial hn
    case pow => exact absurd trivial hn
    case mul =>
      simp only [evaluateHessian]
      refine evaluateHessianDefault_total _ _ _ _ _ fun i hin l idx => mulHessC_no_tangent i hin l idx _ ?_
      intro q hq
      obtain ⟨p, hp, rfl⟩ := List.mem_map.1 hq
      have : p.1 ∈ [a, b] := by
        have := (List.mem_filter.1 hp).1
        exact (List.mem_zipIdx' this).2 ▸ List.getElem_mem _
      exact hm p.1 this
    all_goals
      simp only [evaluateHessian]
      exact evaluateHessianDefault_total _ _ _ _ _ fun _ _ _ _ => ⟨_, rfl⟩

/-- Totality of the Hessian sweep, and which variables get a value. -/
theorem FTape.hess_total (t : FTape) (wf : WF t.blocks) (R : BV → Prop)
    (hR : ∀ b ∈ t, (∃ d ∈ b.deps, R d) → R b.out)
    (H : FHeap) (hHm : ∀ v, R v → (H v).marked = true)
    (g : FHeap) (hgm : ∀ v, R v → (g v).marked = true)
    (hgt : ∀ b ∈ t, ∀ d ∈ b.deps, ¬ R d → (g d).tlm = none)
    (hga : ∀ b ∈ t, R b.out → (g b.out).adj = (evaluateAdj t.blocks true H b.out).adj)
    (hinit : ∀ v, R v → (H v).adj.isSome = (g v).hess.isSome)
    (hneed : ∀ b ∈ t, b.NeedsAdj → R b.out) :
    ∃ g', t.evaluateHessian true g = .ok g' ∧
      ∀ v, R v → (evaluateAdj t.blocks true H v).adj.isSome = (g' v).hess.isSome := by
  induction t with
  | nil => exact ⟨g, rfl, hinit⟩
  | cons b t ih =>
    have hself := FTape.WF_self wf
    have hhead := FTape.WF_head wf
    have ecs : ∀ h : FHeap, evaluateAdj (FTape.blocks (b :: t)) true h
        = b.toBlock.evaluateAdj true (evaluateAdj (FTape.blocks t) true h) := fun h => evaluateAdj_cons _ _ _ _
    have keep : ∀ (h : FHeap) (v : BV), v ∉ b.deps →
        (evaluateAdj (FTape.blocks (b :: t)) true h v).adj = (evaluateAdj (FTape.blocks t) true h v).adj := by
      intro h v hv
      rw [ecs, Block.evaluateAdj_apply]
      simp only
      unfold Block.adjAfter
      split
      · rfl
      · have hv' : v ∉ b.toBlock.deps := by rw [b.toBlock_deps]; exact hv
        have : entries b.toBlock.deps v = [] := entries_nil_of_not_mem hv'
        simp [this]
    obtain ⟨g₁, h1, ihs⟩ := ih (FTape.WF_tail wf) (fun b' hb' => hR b' (by simp [hb']))
      (fun b' hb' => hgt b' (by simp [hb']))
      (by
        intro b' hb' hr
        rw [hga b' (by simp [hb']) hr]
        exact keep _ _ fun hd => (hhead b' hb').1 _ hd rfl)
      (fun b' hb' => hneed b' (by simp [hb']))
    have hbn : b.out ∉ b.deps := hself b (by simp)
    have hfr := FTape.evaluateHessian_frame t true g g₁ h1
    have g1m : ∀ d, (g₁ d).marked = (g d).marked := by
      intro d; obtain ⟨o, ho⟩ := hfr d; rw [ho]
    have g1t : ∀ d, (g₁ d).tlm = (g d).tlm := by
      intro d; obtain ⟨o, ho⟩ := hfr d; rw [ho]
    have hcons : ∀ g', b.evaluateHessian true g₁ = .ok g' →
        FTape.evaluateHessian (b :: t) true g = .ok g' := by
      intro g' hg'
      rw [FTape.evaluateHessian_cons, h1]; exact hg'
    have hstep := fun v (hr : R v) => b.evaluateAdj_getD true (evaluateAdj (FTape.blocks t) true H) v
      (by simp [hHm v hr])
    by_cases hro : R b.out
    · cases hh : (g₁ b.out).hess with
      | none =>
        refine ⟨g₁, hcons _ (b.evaluateHessian_of_none true g₁ hh), ?_⟩
        intro v hr
        have := ihs b.out hro
        rw [hh] at this
        rw [ecs, (hstep v hr).2, this, ← ihs v hr]
        simp
      | some hin =>
        have hs := ihs b.out hro
        rw [hh] at hs
        obtain ⟨l, hl⟩ := Option.isSome_iff_exists.1 hs
        have e0 : (g₁ b.out).adj = some l := by
          obtain ⟨o, ho⟩ := hfr b.out
          rw [ho]
          show (g b.out).adj = _
          rw [hga b (by simp) hro, keep _ _ hbn, hl]
        obtain ⟨C, hC1, hC2, hC3⟩ := b.hess_list g₁ hin l hh e0 (by
          intro d hd hm
          rw [g1t]
          apply hgt b (by simp) d hd
          intro hr
          rw [g1m, hgm d hr] at hm; cases hm)
        refine ⟨_, hcons _ hC1, ?_⟩
        intro v hr
        obtain ⟨hC3, hC4⟩ := hC3 v (by rw [g1m]; exact hgm v hr)
        obtain ⟨o, ho, ho2, ho3⟩ := addMany_frame C g₁ v
        rw [ecs, (hstep v hr).2, hl, ho, ho3, ← ihs v hr, Option.isSome_some, Bool.and_true]
        congr 1
        rw [decide_eq_decide]
        refine ⟨hC4, ?_⟩
        intro hm; obtain ⟨p, hp, e⟩ := List.mem_map.1 hm; exact e ▸ hC2 p hp
    · have hdr : ∀ d ∈ b.deps, ¬ R d := fun d hd hr => hro (hR b (by simp) ⟨d, hd, hr⟩)
      obtain ⟨g', hg'⟩ := b.evaluateHessian_no_tangent_ok g₁ (by
        intro d hd
        rw [g1t]
        exact hgt b (by simp) d hd (hdr d hd)) (fun hn => hro (hneed b (by simp) hn))
      refine ⟨g', hcons _ hg', ?_⟩
      intro v hr
      have hv : v ∉ b.deps := fun hd => hdr v hd hr
      obtain ⟨C, rfl, hC⟩ := b.evaluateHessian_ok true g₁ g' hg'
      obtain ⟨o, ho, ho2, ho3⟩ := addMany_frame C g₁ v
      have hnm : ¬ v ∈ C.map Prod.fst := by
        intro hm; obtain ⟨p, hp, e⟩ := List.mem_map.1 hm; exact hv (e ▸ hC p hp)
      rw [decide_eq_false hnm, Bool.or_false] at ho3
      rw [keep _ _ hv, ho, ho3]
      exact ihs v hr

/-- The heap on which `compute_hessian` starts the Hessian sweep. -/
noncomputable def preHess (t : FTape) (J : BV) (cs : List BV) (ds : List ℝ) (k : FHeap) : FHeap :=
  let h := resetVariables t.blocks .tlm k
  let h := resetVariables t.blocks .hessian h
  let h := seedTlm cs ds h
  let nodes := findRelevantNodes t.blocks cs
  let h := markAll nodes false (t.evaluateTlm true (markAll nodes true h))
  let h := Function.update h J { h J with hess := some 0 }
  markAll nodes true h

theorem computeHessian_eq (t : FTape) (J : BV) (cs : List BV) (ds : List ℝ) (k : FHeap) :
    t.computeHessian J cs ds k = (t.evaluateHessian true (preHess t J cs ds k)).map fun h =>
      let h := markAll (findRelevantNodes t.blocks cs) false h
      (cs.map (getHessian h), h) := by
  unfold FTape.computeHessian preHess
  simp only []
  split <;> rename_i e <;> rw [e] <;> rfl

open Classical in
theorem preHess_fields (t : FTape) (wf : WF t.blocks) (J : BV) (cs : List BV) (ds : List ℝ) (k : FHeap)
    (v : BV) :
    let g := preHess t J cs ds k
    (Reach t.blocks (· ∈ cs) v → (g v).marked = true) ∧ (g v).adj = (k v).adj ∧
      (OnTape t.blocks v → ¬ Reach t.blocks (· ∈ cs) v → (g v).tlm = none) ∧
      (g v).hess = (if v = J then some 0 else if OnTape t.blocks v then none else (k v).hess) := by
  intro g
  have hn : ∀ v, v ∈ findRelevantNodes t.blocks cs ↔ Reach t.blocks (· ∈ cs) v :=
    fun v => findRelevantNodes_iff wf cs v
  set nodes := findRelevantNodes t.blocks cs with hnodes
  set h₃ := seedTlm cs ds (resetVariables t.blocks .hessian (resetVariables t.blocks .tlm k)) with hh₃
  set h₄ := t.evaluateTlm true (markAll nodes true h₃) with hh₄
  set h₅ := markAll nodes false h₄ with hh₅
  have hg : g = markAll nodes true (Function.update h₅ J { h₅ J with hess := some 0 }) := rfl
  have fr₃ : ∀ v, (h₃ v).adj = (k v).adj ∧
      (h₃ v).hess = (if OnTape t.blocks v then none else (k v).hess) := by
    intro v
    obtain ⟨o, ho⟩ := seedTlm_frame cs ds (resetVariables t.blocks .hessian
      (resetVariables t.blocks .tlm k)) v
    rw [hh₃, ho]
    refine ⟨by simp, ?_⟩
    show (resetVariables t.blocks .hessian (resetVariables t.blocks .tlm k) v).hess = _
    rw [resetVariables_apply]
    split
    · rfl
    · rw [resetTlm_hess]
  have hself := FTape.WF_self wf
  have fr₄ := fun v => FTape.evaluateTlm_frame t true (markAll nodes true h₃) v hself
  have fr₅ : ∀ v, ∃ o m, h₅ v = { h₃ v with tlm := o, marked := m } := by
    intro v
    obtain ⟨o, ho⟩ := fr₄ v
    rw [hh₅, hh₄, markAll_apply, ho, markAll_apply]
    split
    · exact ⟨o, false, rfl⟩
    · exact ⟨o, _, rfl⟩
  obtain ⟨o, mk, ho⟩ := fr₅ v
  have hm := fr₃ v
  have ht : (h₅ v).tlm = (h₄ v).tlm := by rw [hh₅]; simp
  refine ⟨?_, ?_, ?_, ?_⟩
  · intro hv
    rw [hg, markAll_apply, if_pos ((hn v).2 hv)]
  · rw [hg, markAll_adj, Function.update_apply]
    split
    · rename_i e; subst e; show (h₅ v).adj = _; rw [ho]; exact hm.1
    · rw [ho]; exact hm.1
  · have e : (g v).tlm = (h₄ v).tlm := by
      rw [hg, markAll_tlm, Function.update_apply]
      split
      · rename_i e; subst e; exact ht
      · exact ht
    rw [e, hh₄]
    revert v
    have h3t : ∀ v, OnTape t.blocks v → ¬ Reach t.blocks (· ∈ cs) v → (h₃ v).tlm = none := by
      intro w hw hr
      have hc : w ∉ cs := fun hc => hr (Reach.base hc)
      rw [hh₃, seedTlm_of_not_mem _ _ _ _ hc, resetHess_tlm, resetVariables_apply, if_pos hw]
      rfl
    have := tape_induction wf (P := fun v => OnTape t.blocks v → ¬ Reach t.blocks (· ∈ cs) v →
      (t.evaluateTlm true (markAll nodes true h₃) v).tlm = none) ?_ ?_
    · intro v; intros; exact this v ‹_› ‹_›
    · intro v hv hon hr
      rw [FTape.evaluateTlm_of_not_out t true _ v hself (fun b hb e =>
        hv b.toBlock (List.mem_map.2 ⟨b, hb, rfl⟩) ((b.mem_outs v).2 e)), markAll_tlm]
      exact h3t v hon hr
    · intro b hb ih o ho hon hr
      obtain ⟨fb, hfb, rfl⟩ := List.mem_map.1 hb
      rw [fb.mem_outs] at ho
      subst ho
      rw [FTape.evaluateTlm_eq wf true _ fb hfb, FBlock.tlmNew_none, markAll_tlm]
      · exact h3t _ hon hr
      · intro d hd
        rw [← fb.toBlock_deps] at hd
        exact ih d hd ⟨_, hb, Or.inl hd⟩ fun hr' => hr (Reach.step hb hd hr' ((fb.mem_outs _).2 rfl))
  · rw [hg, markAll_hess, Function.update_apply]
    split
    · rfl
    · rw [ho]; exact hm.2

/-- **C06, the call returns.** `rf.hessian` raises no exception if the result of every `/` and `**` on the
tape depends on a control.  (Not needed for the other operations; without it the call can
raise, `hessian_raises`.) -/
theorem hessian_returns_partial (t : FTape) (wf : WF t.blocks) (J : BV) (cs : List BV) (h : FHeap)
    (scale adjInput : ℝ) (ds : List ℝ)
    (hon : ∀ c ∈ cs, OnTape t.blocks c ∨ c = J ∨ ((h c).adj = none ∧ (h c).hess = none))
    (hneed : ∀ b ∈ t, b.NeedsAdj → Reach t.blocks (· ∈ cs) b.out) :
    ∃ r, t.computeHessian J cs ds (rfDerivative t.blocks J cs scale adjInput h).2 = .ok r := by
  classical
  set nodes := findRelevantNodes t.blocks cs with hnodes
  have hn : ∀ v, v ∈ nodes ↔ Reach t.blocks (· ∈ cs) v := fun v => findRelevantNodes_iff wf cs v
  let H : FHeap :=
    let h := resetVariables t.blocks .adjoint h
    let h := Function.update h J { h J with adj := some (adjInput * scale) }
    markControls cs true (markAll nodes true h)
  have hpost : (rfDerivative t.blocks J cs scale adjInput h).2
      = markAll nodes false (markControls cs false (evaluateAdj t.blocks true H)) := rfl
  have H_marked : ∀ v, (H v).marked = (decide (v ∈ nodes) || (h v).marked) := by
    intro v
    simp only [H, markControls_marked, markAll_apply]
    by_cases hv : v ∈ nodes
    · simp [hv]
    · simp only [hv, if_false, decide_false, Bool.false_or]
      rw [Function.update_apply]; split <;> simp_all
  have H_adj : ∀ v, (H v).adj
      = if v = J then some (adjInput * scale) else if OnTape t.blocks v then none else (h v).adj := by
    intro v
    simp only [H, markControls_adj, markAll_adj]
    rw [Function.update_apply]
    split
    · rfl
    · rw [resetVariables_apply]; split <;> rfl
  have H_hess : ∀ v, (H v).hess = (h v).hess := by
    intro v
    simp only [H, markControls_hess, markAll_hess]
    rw [Function.update_apply]; split <;> simp_all
  set k := (rfDerivative t.blocks J cs scale adjInput h).2 with hk
  have k_adj : ∀ v, (k v).adj = (evaluateAdj t.blocks true H v).adj := by
    intro v; rw [hpost]; simp
  have k_hess : ∀ v, (k v).hess = (h v).hess := by
    intro v; rw [hpost]; simp [H_hess]
  have gf := preHess_fields t wf J cs ds k
  simp only at gf
  obtain ⟨g', hg', -⟩ := FTape.hess_total t wf (Reach t.blocks (· ∈ cs))
    (by
      intro b hb ⟨d, hd, hr⟩
      exact Reach.step (b := b.toBlock) (List.mem_map.2 ⟨b, hb, rfl⟩) (by rw [b.toBlock_deps]; exact hd) hr
        ((b.mem_outs _).2 rfl))
    H (by intro v hr; rw [H_marked, decide_eq_true ((hn v).2 hr), Bool.true_or])
    (preHess t J cs ds k) (fun v => (gf v).1)
    (fun b hb d hd hr => (gf d).2.2.1
      ⟨b.toBlock, List.mem_map.2 ⟨b, hb, rfl⟩, Or.inl (by rw [b.toBlock_deps]; exact hd)⟩ hr)
    (fun b hb hr => by rw [(gf _).2.1, k_adj])
    (by
      intro v hr
      rw [(gf v).2.2.2, H_adj]
      by_cases hJ : v = J
      · simp only [hJ, if_true, Option.isSome_some]
      · by_cases ho : OnTape t.blocks v
        · simp only [hJ, ho, if_true, if_false, Option.isSome_none]
        · have hc : v ∈ cs := by
            cases hr with
            | base hc => exact hc
            | step hb _ _ ho' => exact absurd ⟨_, hb, Or.inr ho'⟩ ho
          rcases hon v hc with h' | h' | ⟨h1, h2⟩
          · exact absurd h' ho
          · exact absurd h' hJ
          · simp only [hJ, ho, if_false, h1, k_hess, h2, Option.isSome_none])
    hneed
  rw [computeHessian_eq, hg']
  exact ⟨_, rfl⟩

/-- **C06 as second derivative, part.** Under the hypotheses of `hessian_exact_partial` the functional is
twice continuously differentiable at `x₀` and `rf.hessian(dir)` returns the vector with
components `D²F(x₀)(dir, eᵢ)`. -/
theorem hessian_second_derivative_partial (t : FTape) (wf : WF t.blocks) (J : BV) (cs : List BV)
    (hnd : cs.Nodup) (h : FHeap) (hfl : ∀ v, (h v).isControl = false)
    (hind : IndependentControls t.blocks cs) (scale adjInput : ℝ) (x₀ dir : Fin cs.length → ℝ)
    (hsmooth : ∀ b ∈ t, (∃ d ∈ b.deps, Reach t.blocks (· ∈ cs) d) →
      b.Smooth2 (saved (rfEval t.blocks cs (List.ofFn x₀) h)) (Reach t.blocks (· ∈ cs)))
    (hon : ∀ c ∈ cs, OnTape t.blocks c ∨ c = J ∨ ((h c).adj = none ∧ (h c).hess = none))
    (hgood : ∀ b ∈ t, (∃ d ∈ b.deps, Reach t.blocks (· ∈ cs) d) →
      b.NoDefect (saved (rfEval t.blocks cs (List.ofFn x₀) h))
        (fun v => deriv (fun s : ℝ => saved (rfEval t.blocks cs (List.ofFn (x₀ + s • dir)) h) v) 0)
        (adjointAt t J cs scale adjInput h x₀ b.out)
        (deriv (fun s : ℝ => adjointAt t J cs scale adjInput h (x₀ + s • dir) b.out) 0))
    (hs : List ℝ) (h' : FHeap)
    (hok : t.computeHessian J cs (List.ofFn dir)
      (rfDerivative t.blocks J cs scale adjInput (rfEval t.blocks cs (List.ofFn x₀) h)).2 = .ok (hs, h')) :
    let F := fun x => adjInput * rfValue t J cs scale h x
    ContDiffAt ℝ 2 F x₀ ∧
      hs = List.ofFn fun i => fderiv ℝ (fderiv ℝ F) x₀ dir (Pi.single i 1) := by
  intro F
  have hF : ContDiffAt ℝ 2 F x₀ := by
    have := FTape.contDiffAt wf cs hnd h hfl x₀ hsmooth J
    have e : F = fun x => adjInput * (saved (rfEval t.blocks cs (List.ofFn x) h) J * scale) := by
      funext x; simp only [F, rfValue_eq]
    rw [e]
    exact contDiffAt_const.mul (this.mul contDiffAt_const)
  refine ⟨hF, ?_⟩
  obtain ⟨hess, rfl, h2⟩ := hessian_exact_partial t wf J cs hnd h hfl hind scale adjInput x₀ dir
    hsmooth hon hgood hs h' hok
  congr 1
  funext i
  have hd : DifferentiableAt ℝ (fderiv ℝ F) x₀ :=
    (hF.fderiv_right (m := 1) (by norm_num)).differentiableAt (by norm_num)
  have e0 : x₀ + (0 : ℝ) • dir = x₀ := by simp
  have hline : HasDerivAt (fun s : ℝ => x₀ + s • dir) dir 0 := by
    simpa using ((hasDerivAt_id (0 : ℝ)).smul_const dir).const_add x₀
  have hd' := hd.hasFDerivAt
  rw [← e0] at hd'
  have h3 := hd'.comp_hasDerivAt (0 : ℝ) hline
  have h4 := h3.clm_apply (hasDerivAt_const (0 : ℝ) (Pi.single i (1 : ℝ)))
  rw [e0] at h4
  simpa using (h2 i).unique h4

/-- **C47, part.** The Hessian actions are symmetric: `⟨H d, e⟩ = ⟨d, H e⟩`, for tapes whose relevant
operations are `+ - / ** neg min max` and squares.  (For general products it fails,
`mul_hessian_asymmetric`.) -/
theorem hessian_symmetric_partial (t : FTape) (wf : WF t.blocks) (J : BV) (cs : List BV)
    (hnd : cs.Nodup) (h : FHeap) (hfl : ∀ v, (h v).isControl = false)
    (hind : IndependentControls t.blocks cs) (scale adjInput : ℝ) (x₀ d e : Fin cs.length → ℝ)
    (hsmooth : ∀ b ∈ t, (∃ d ∈ b.deps, Reach t.blocks (· ∈ cs) d) →
      b.Smooth2 (saved (rfEval t.blocks cs (List.ofFn x₀) h)) (Reach t.blocks (· ∈ cs)))
    (hon : ∀ c ∈ cs, OnTape t.blocks c ∨ c = J ∨ ((h c).adj = none ∧ (h c).hess = none))
    (hsafe : ∀ b ∈ t, (∃ d ∈ b.deps, Reach t.blocks (· ∈ cs) d) → b.HessSafe)
    (hd he : Fin cs.length → ℝ) (h₁ h₂ : FHeap)
    (hok₁ : t.computeHessian J cs (List.ofFn d)
      (rfDerivative t.blocks J cs scale adjInput (rfEval t.blocks cs (List.ofFn x₀) h)).2
        = .ok (List.ofFn hd, h₁))
    (hok₂ : t.computeHessian J cs (List.ofFn e)
      (rfDerivative t.blocks J cs scale adjInput (rfEval t.blocks cs (List.ofFn x₀) h)).2
        = .ok (List.ofFn he, h₂)) :
    ∑ i, hd i * e i = ∑ i, he i * d i := by
  obtain ⟨hF, h1⟩ := hessian_second_derivative_partial t wf J cs hnd h hfl hind scale adjInput x₀ d
    hsmooth hon (fun b hb hd => (hsafe b hb hd).noDefect _ _ _ _) _ _ hok₁
  obtain ⟨-, h2⟩ := hessian_second_derivative_partial t wf J cs hnd h hfl hind scale adjInput x₀ e
    hsmooth hon (fun b hb hd => (hsafe b hb hd).noDefect _ _ _ _) _ _ hok₂
  have h1 := List.ofFn_injective h1
  have h2 := List.ofFn_injective h2
  subst h1 h2
  have hsym := hF.isSymmSndFDerivAt (by simp)
  have key : ∀ u w : Fin cs.length → ℝ, ∀ L : (Fin cs.length → ℝ) →L[ℝ] ((Fin cs.length → ℝ) →L[ℝ] ℝ),
      ∑ i, L u (Pi.single i 1) * w i = L u w := by
    intro u w L
    conv_rhs => rw [pi_eq_sum_univ' w, map_sum]
    refine Finset.sum_congr rfl fun i _ => ?_
    rw [map_smul, smul_eq_mul, mul_comm]
  rw [key, key]
  exact hsym d e

/-- Example heap: variable 1 holds 5, all others 2. -/
noncomputable def unitHeap : FHeap := fun v => { output := if v = 1 then 5 else 2 }

/-- **C06 fails for `exp`.** `rf(x) = exp x`; `rf.hessian` returns `0` for every point and direction. -/
theorem exp_hessian_wrong (x d : ℝ) :
    let t : FTape := [.un .exp 0 1]
    (∀ x, rfValue t 1 [0] 1 unitHeap ![x] = Real.exp x) ∧
    ∃ h', t.computeHessian 1 [0] [d] (rfDerivative t.blocks 1 [0] 1 1 (rfEval t.blocks [0] [x] unitHeap)).2
      = .ok ([0], h') := by
  intro t
  constructor
  · intro x
    rw [rfValue_eq, mul_one]
    rfl
  · have : ∃ r h', t.computeHessian 1 [0] [d] (rfDerivative t.blocks 1 [0] 1 1 (rfEval t.blocks [0] [x] unitHeap)).2
      = .ok ([r], h') ∧ r = 0 := by
      refine ⟨_, _, rfl, ?_⟩
      show Real.exp x * 0 = 0
      simp
    obtain ⟨r, h', h1, rfl⟩ := this
    exact ⟨h', h1⟩

/-- **C06 fails for `log`.** `rf(x) = log x`; `rf.hessian` returns `0` for every point and direction. -/
theorem log_hessian_wrong (x d : ℝ) :
    let t : FTape := [.un .log 0 1]
    (∀ x, rfValue t 1 [0] 1 unitHeap ![x] = Real.log x) ∧
    ∃ h', t.computeHessian 1 [0] [d] (rfDerivative t.blocks 1 [0] 1 1 (rfEval t.blocks [0] [x] unitHeap)).2
      = .ok ([0], h') := by
  intro t
  constructor
  · intro x
    rw [rfValue_eq, mul_one]
    rfl
  · have : ∃ r h', t.computeHessian 1 [0] [d] (rfDerivative t.blocks 1 [0] 1 1 (rfEval t.blocks [0] [x] unitHeap)).2
      = .ok ([r], h') ∧ r = 0 := by
      refine ⟨_, _, rfl, ?_⟩
      show -0 / x /x = 0
      simp
    obtain ⟨r, h', h1, rfl⟩ := this
    exact ⟨h', h1⟩

/-- **C06 fails for `*`.** With `b = a * 5.0`, `J = b * b`, `rf(x) = 25 x²`, whose second derivative is `50`;
`rf.hessian([d])` returns `10 x d`. -/
theorem mul_hessian_wrong (x d : ℝ) :
    let t : FTape := [.bin .mul 0 1 2, .bin .mul 2 2 3]
    (∀ x, rfValue t 3 [0] 1 unitHeap ![x] = 25 * x ^ 2) ∧
    ∃ h', t.computeHessian 3 [0] [d] (rfDerivative t.blocks 3 [0] 1 1 (rfEval t.blocks [0] [x] unitHeap)).2
      = .ok ([10 * x * d], h') := by
  intro t
  constructor
  · intro x
    rw [rfValue_eq, mul_one]
    show (x * 5) * (x * 5) = _
    ring
  · have : ∃ r h', t.computeHessian 3 [0] [d] (rfDerivative t.blocks 3 [0] 1 1 (rfEval t.blocks [0] [x] unitHeap)).2
      = .ok ([r], h') ∧ r = 10 * x * d := by
      refine ⟨_, _, rfl, ?_⟩
      show 0 + (((1 : ℝ) * 1) * (0 + d * 5 + 0) + 0 * (x * 5) + ((1 * 1) * (0 + d * 5 + 0) + 0 * (x * 5))) * x = _
      ring
    obtain ⟨r, h', h1, rfl⟩ := this
    exact ⟨h', h1⟩

/-- **C06, the call may raise.** `J = a - b ** 2.0` with the single control `a`: `rf.hessian` raises
`TypeError`, for every point and direction. -/
theorem hessian_raises (x d : ℝ) :
    let t : FTape := [.bin .pow 1 2 3, .bin .sub 0 3 4]
    (∀ x, rfValue t 4 [0] 1 unitHeap ![x] = x - 25) ∧
    t.computeHessian 4 [0] [d] (rfDerivative t.blocks 4 [0] 1 1 (rfEval t.blocks [0] [x] unitHeap)).2
      = .error .typeError := by
  intro t
  constructor
  · intro x
    rw [rfValue_eq, mul_one]
    show x - (5 : ℝ) ^ (2 : ℝ) = _
    norm_num
  · rfl

/-- **C47 fails for products.** `p = a * b`, `J = p * p`: the two mixed entries of the Hessian that
`rf.hessian` returns are `4 x y` and `2 x y + 2 y²`. -/
theorem mul_hessian_asymmetric (x y : ℝ) :
    let t : FTape := [.bin .mul 0 1 2, .bin .mul 2 2 3]
    let k := (rfDerivative t.blocks 3 [0, 1] 1 1 (rfEval t.blocks [0, 1] [x, y] unitHeap)).2
    (∃ p h', t.computeHessian 3 [0, 1] [0, 1] k = .ok ([4 * x * y, p], h')) ∧
    (∃ q h', t.computeHessian 3 [0, 1] [1, 0] k = .ok ([q, 2 * x * y + 2 * y ^ 2], h')) := by
  intro t k
  constructor
  · have : ∃ r p h', t.computeHessian 3 [0, 1] [0, 1] k = .ok ([r, p], h') ∧ r = 4 * x * y := by
      refine ⟨_, _, _, rfl, ?_⟩
      show ((1 * 1 * (x * y) + 1 * 1 * (x * y)) * (1 : ℝ) +
        ((1 * 1) * (0 + 0 * y + 1 * x) + 0 * (x * y) + ((1 * 1) * (0 + 0 * y + 1 * x) + 0 * (x * y))) * y) = _
      ring
    obtain ⟨r, p, h', h1, rfl⟩ := this
    exact ⟨p, h', h1⟩
  · have : ∃ q r h', t.computeHessian 3 [0, 1] [1, 0] k = .ok ([q, r], h') ∧
        r = 2 * x * y + 2 * y ^ 2 := by
      refine ⟨_, _, _, rfl, ?_⟩
      show ((1 * 1 * (x * y) + 1 * 1 * (x * y)) * (1 : ℝ) +
        ((1 * 1) * (0 + 1 * y + 0 * x) + 0 * (x * y) + ((1 * 1) * (0 + 1 * y + 0 * x) + 0 * (x * y))) * y) = _
      ring
    obtain ⟨q, r, h', h1, rfl⟩ := this
    exact ⟨q, h', h1⟩

/-- `v₂ = v₀ * v₀ ; v₃ = v₂ / v₁ ; v₄ = v₃ + v₀` (example data). -/
def exHess : FTape := [.bin .mul 0 0 2, .bin .div 2 1 3, .bin .add 3 0 4]

/-- The hypotheses of the C06 and C47 theorems hold for `exHess` with controls `v₀`, `v₁` wherever the
denominator is nonzero, in every direction; in particular the call returns. -/
example (x₀ dir : Fin 2 → ℝ) (hx : x₀ 1 ≠ 0) :
    WF exHess.blocks ∧ IndependentControls exHess.blocks [0, 1] ∧
    (∀ b ∈ exHess, (∃ d ∈ b.deps, Reach exHess.blocks (· ∈ [0, 1]) d) →
      b.Smooth2 (saved (rfEval exHess.blocks [0, 1] (List.ofFn x₀) unitHeap)) (Reach exHess.blocks (· ∈ [0, 1]))) ∧
    (∀ b ∈ exHess, b.HessSafe) ∧
    ∃ r, exHess.computeHessian 4 [0, 1] (List.ofFn dir)
      (rfDerivative exHess.blocks 4 [0, 1] 1 1 (rfEval exHess.blocks [0, 1] (List.ofFn x₀) unitHeap)).2 = .ok r := by
  have hwf : WF exHess.blocks := by
    refine ⟨?_, ?_, ?_⟩
    · intro b hb
      simp only [FTape.blocks, exHess, List.map_cons, List.map_nil, List.mem_cons, List.not_mem_nil,
        or_false] at hb
      rcases hb with rfl | rfl | rfl <;> simp [FBlock.toBlock]
    · intro b hb
      simp only [FTape.blocks, exHess, List.map_cons, List.map_nil, List.mem_cons, List.not_mem_nil,
        or_false] at hb
      rcases hb with rfl | rfl | rfl <;> simp [FBlock.toBlock]
    · simp [FTape.blocks, exHess, FBlock.toBlock]
  refine ⟨hwf, ?_, ?_, ?_, ?_⟩
  · intro c hc b hb ho
    simp only [FTape.blocks, exHess, List.map_cons, List.map_nil, List.mem_cons, List.not_mem_nil,
        or_false] at hb hc
    rcases hb with rfl | rfl | rfl <;> rcases hc with rfl | rfl <;> simp [FBlock.toBlock] at ho
  · intro b hb _
    simp only [exHess, List.mem_cons, List.not_mem_nil, or_false] at hb
    rcases hb with rfl | rfl | rfl
    · trivial
    · exact hx
    · trivial
  · intro b hb
    simp only [exHess, List.mem_cons, List.not_mem_nil, or_false] at hb
    rcases hb with rfl | rfl | rfl <;> first | rfl | trivial
  · refine hessian_returns_partial exHess hwf 4 [0, 1] _ 1 1 _ ?_ ?_
    · intro c hc
      simp only [List.mem_cons, List.not_mem_nil, or_false] at hc
      rcases hc with rfl | rfl
      · exact Or.inl ⟨_, by simp [FTape.blocks, exHess]; exact Or.inl rfl, by simp [FBlock.toBlock]⟩
      · exact Or.inl ⟨_, by simp [FTape.blocks, exHess]; exact Or.inr (Or.inl rfl), by simp [FBlock.toBlock]⟩
    · intro b hb hn
      simp only [exHess, List.mem_cons, List.not_mem_nil, or_false] at hb
      rcases hb with rfl | rfl | rfl
      · exact absurd hn id
      · exact Reach.step (b := FBlock.toBlock (.bin .div 2 1 3)) (d := 1) (by simp [FTape.blocks, exHess])
          (by simp [FBlock.toBlock]) (Reach.base (by simp)) (by simp [FBlock.toBlock, FBlock.out])
      · exact absurd hn id

end Pyadjoint
