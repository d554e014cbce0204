import Verif.Proofs.OptimizeSweep

/-!
# C08, C09, C10: tape optimisation

`steps` is the tape split into timesteps; `steps.flatten` is the tape.  The specification uses only the
inductive reachability relations of `Verif.Spec.Reach`.
-/

namespace Pyadjoint

variable {V T A : Type*}

/-- The block computes something from a control. -/
def DependsOnControl (bs : Blocks V T A) (cs : List BV) (b : Block V T A) : Prop :=
  ∃ d ∈ b.deps, Reach bs (· ∈ cs) d

/-- The block contributes to a functional. -/
def ContributesTo (bs : Blocks V T A) (fs : List BV) (b : Block V T A) : Prop :=
  ∃ o ∈ b.outs, CoReach bs (· ∈ fs) o

theorem depIn_iff {bs : Blocks V T A} (wf : WF bs) (cs : List BV) (b : Block V T A) :
    depIn (findRelevantNodes bs cs) b = true ↔ DependsOnControl bs cs b := by
  unfold depIn DependsOnControl
  rw [List.any_eq_true]
  exact exists_congr fun d => and_congr_right fun _ => by
    rw [decide_eq_true_iff, findRelevantNodes_iff wf]

theorem outIn_iff {bs : Blocks V T A} (wf : WF bs) (fs : List BV) (b : Block V T A) :
    outIn (findNeededNodes bs fs) b = true ↔ ContributesTo bs fs b := by
  unfold outIn ContributesTo
  rw [List.any_eq_true]
  exact exists_congr fun d => and_congr_right fun _ => by
    rw [decide_eq_true_iff, findNeededNodes_iff wf]

/-- **C09.** `optimize_for_controls` raises exactly when some control is computed on the tape from a
control. -/
theorem optimize_raises_iff {steps : List (Blocks V T A)} (wf : WF steps.flatten) (cs : List BV) :
    optimizeForControls steps cs = none ↔
      ∃ c ∈ cs, ∃ b ∈ steps.flatten, c ∈ b.outs ∧ DependsOnControl steps.flatten cs b := by
  unfold optimizeForControls
  rw [Option.map_eq_none_iff, optControls_none wf]
  constructor
  · rintro ⟨b, hb, h1, o, ho, hn⟩
    exact ⟨o, hn, b, hb, ho, (depIn_iff wf cs b).1 h1⟩
  · rintro ⟨c, hc, b, hb, ho, h1⟩
    exact ⟨b, hb, (depIn_iff wf cs b).2 h1, c, ho, hc⟩

open Classical in
/-- **C10, controls.** Otherwise the new tape consists of exactly the blocks that depend on a control, in
order, each in its timestep. -/
theorem optimize_for_controls_exact {steps steps' : List (Blocks V T A)} (wf : WF steps.flatten)
    (cs : List BV) (h : optimizeForControls steps cs = some steps') :
    steps' = steps.map fun s => s.filter fun b => DependsOnControl steps.flatten cs b := by
  unfold optimizeForControls at h
  simp only [Option.map_eq_some_iff] at h
  obtain ⟨r, h1, rfl⟩ := h
  rw [optControls_some wf _ _ _ h1]
  simp only [List.nil_append]
  refine List.map_congr_left fun s _ => List.filter_congr fun b _ => ?_
  rw [Bool.eq_iff_iff, decide_eq_true_iff, depIn_iff wf]

open Classical in
/-- **C10, functionals.** `optimize_for_functionals` keeps exactly the blocks that contribute to a
functional, in order, each in its timestep. -/
theorem optimize_for_functionals_exact {steps : List (Blocks V T A)} (wf : WF steps.flatten)
    (fs : List BV) :
    optimizeForFunctionals steps fs
      = steps.map fun s => s.filter fun b => ContributesTo steps.flatten fs b := by
  unfold optimizeForFunctionals
  rw [optFunctionals_eq wf]
  simp only [List.reverse_reverse]
  refine List.map_congr_left fun s _ => List.filter_congr fun b _ => ?_
  rw [Bool.eq_iff_iff, decide_eq_true_iff, outIn_iff wf]

theorem flatten_map_filter (steps : List (Blocks V T A)) (p : Block V T A → Bool) :
    (steps.map fun s => s.filter p).flatten = steps.flatten.filter p := by
  rw [List.filter_flatten]

theorem map_filter_id {steps : List (Blocks V T A)} {p : Block V T A → Bool}
    (h : ∀ b ∈ steps.flatten, p b = true) : (steps.map fun s => s.filter p) = steps := by
  conv_rhs => rw [← List.map_id steps]
  refine List.map_congr_left fun s hs => ?_
  rw [id, List.filter_eq_self]
  exact fun b hb => h b (List.mem_flatten.2 ⟨s, hs, hb⟩)

theorem reach_filter_mono {bs : Blocks V T A} {p : Block V T A → Bool} {S : BV → Prop} {v : BV}
    (h : Reach (bs.filter p) S v) : Reach bs S v := by
  induction h with
  | base h => exact .base h
  | step hb hd _ ho ih => exact .step (List.mem_filter.1 hb).1 hd ih ho

theorem coreach_filter_mono {bs : Blocks V T A} {p : Block V T A → Bool} {S : BV → Prop} {v : BV}
    (h : CoReach (bs.filter p) S v) : CoReach bs S v := by
  induction h with
  | base h => exact .base h
  | step hb ho _ hd ih => exact .step (List.mem_filter.1 hb).1 ho ih hd

theorem reach_filter {bs : Blocks V T A} {cs : List BV} {p : Block V T A → Bool}
    (hp : ∀ b ∈ bs, DependsOnControl bs cs b → p b = true) {v : BV} :
    Reach (bs.filter p) (· ∈ cs) v ↔ Reach bs (· ∈ cs) v := by
  refine ⟨reach_filter_mono, fun h => ?_⟩
  induction h with
  | base h => exact .base h
  | step hb hd hr ho ih => exact .step (List.mem_filter.2 ⟨hb, hp _ hb ⟨_, hd, hr⟩⟩) hd ih ho

theorem coreach_filter {bs : Blocks V T A} {fs : List BV} {p : Block V T A → Bool}
    (hp : ∀ b ∈ bs, ContributesTo bs fs b → p b = true) {v : BV} :
    CoReach (bs.filter p) (· ∈ fs) v ↔ CoReach bs (· ∈ fs) v := by
  refine ⟨coreach_filter_mono, fun h => ?_⟩
  induction h with
  | base h => exact .base h
  | step hb ho hr hd ih => exact .step (List.mem_filter.2 ⟨hb, hp _ hb ⟨_, ho, hr⟩⟩) ho ih hd

/-- **C10, idempotence.** -/
theorem optimize_for_controls_idempotent {steps steps' : List (Blocks V T A)} (wf : WF steps.flatten)
    (cs : List BV) (h : optimizeForControls steps cs = some steps') :
    optimizeForControls steps' cs = some steps' := by
  classical
  have hs := optimize_for_controls_exact wf cs h
  have hflat : steps'.flatten = steps.flatten.filter fun b => decide (DependsOnControl steps.flatten cs b) := by
    rw [hs, flatten_map_filter]
  have wf' : WF steps'.flatten := by rw [hflat]; exact wf.filter _
  have hdep : ∀ b ∈ steps'.flatten, DependsOnControl steps'.flatten cs b := by
    intro b hb
    rw [hflat] at hb
    obtain ⟨hb1, hb2⟩ := List.mem_filter.1 hb
    obtain ⟨d, hd, hr⟩ := of_decide_eq_true hb2
    refine ⟨d, hd, ?_⟩
    rw [hflat]
    exact (reach_filter (fun b _ h => decide_eq_true h)).2 hr
  cases h2 : optimizeForControls steps' cs with
  | none =>
    obtain ⟨c, hc, b, hb, ho, hd⟩ := (optimize_raises_iff wf' cs).1 h2
    rw [hflat] at hb
    obtain ⟨hb1, hb2⟩ := List.mem_filter.1 hb
    have := (optimize_raises_iff wf cs).2 ⟨c, hc, b, hb1, ho, of_decide_eq_true hb2⟩
    rw [h] at this; cases this
  | some s =>
    rw [optimize_for_controls_exact wf' cs h2]
    rw [map_filter_id fun b hb => decide_eq_true (hdep b hb)]

theorem optimize_for_functionals_idempotent {steps : List (Blocks V T A)} (wf : WF steps.flatten)
    (fs : List BV) : optimizeForFunctionals (optimizeForFunctionals steps fs) fs
      = optimizeForFunctionals steps fs := by
  classical
  have hs := optimize_for_functionals_exact wf fs
  have hflat : (optimizeForFunctionals steps fs).flatten
      = steps.flatten.filter fun b => decide (ContributesTo steps.flatten fs b) := by
    rw [hs, flatten_map_filter]
  have wf' : WF (optimizeForFunctionals steps fs).flatten := by rw [hflat]; exact wf.filter _
  rw [optimize_for_functionals_exact wf' fs]
  refine map_filter_id fun b hb => decide_eq_true ?_
  rw [hflat] at hb
  obtain ⟨hb1, hb2⟩ := List.mem_filter.1 hb
  obtain ⟨o, ho, hr⟩ := of_decide_eq_true hb2
  refine ⟨o, ho, ?_⟩
  rw [hflat]
  exact (coreach_filter (fun b _ h => decide_eq_true h)).2 hr

/-! ## C08 -/

/-- The stored values of what does not depend on a control are what replaying would store. -/
def ConsistentOff (bs : Blocks V T A) (cs : List BV) (h : Heap V T A) : Prop :=
  ∀ b ∈ bs, ¬ DependsOnControl bs cs b → (∀ o ∈ b.outs, o ∉ cs) →
    ∀ (i : Nat) (hi : i < b.outs.length) (x : V),
      b.recomputeC (b.deps.map (saved h)) i = some x → saved h b.outs[i] = x

theorem saved_of_ckpt {h : Heap V T A} {v : BV} {o : V} {c d : Option V} (h1 : (h v).ckpt = orKeep c d)
    (h2 : (h v).output = o) : saved h v = d.getD (c.getD o) := by
  unfold saved
  rw [h1, h2]
  cases d <;> cases c <;> rfl

theorem saved_eq_getD (h : Heap V T A) (v : BV) : saved h v = (h v).ckpt.getD (h v).output := by
  unfold saved; cases (h v).ckpt <;> rfl

theorem rfEval_output (bs : Blocks V T A) (cs : List BV) (xs : List V) (h : Heap V T A) (v : BV)
    (hfl : ∀ v, (h v).isControl = false) : (rfEval bs cs xs h v).output = (h v).output := by
  obtain ⟨c, hc⟩ := rfEval_frame bs cs xs h v (fun c _ => hfl c)
  rw [hc]

/-- The value of a control after an evaluation does not depend on the tape. -/
theorem rfEval_control_indep (bs bs' : Blocks V T A) (cs : List BV) (xs : List V) (h : Heap V T A)
    (v : BV) (hv : v ∈ cs) : rfEval bs cs xs h v = rfEval bs' cs xs h v := by
  unfold rfEval
  simp only [markControls_apply cs false, hv, if_true]
  rw [recompute_of_control, recompute_of_control] <;> rw [markControls_apply, if_pos hv]

theorem rfEval_saved_block {bs : Blocks V T A} (wf : WF bs) (cs : List BV) (xs : List V)
    (h : Heap V T A) (hfl : ∀ v, (h v).isControl = false) (b : Block V T A) (hb : b ∈ bs)
    (hno : ∀ o ∈ b.outs, o ∉ cs) (i : Nat) (hi : i < b.outs.length) :
    saved (rfEval bs cs xs h) b.outs[i]
      = (b.recomputeC (b.deps.map (saved (rfEval bs cs xs h))) i).getD (saved h b.outs[i]) := by
  rw [saved_of_ckpt (rfEval_block wf cs xs h hfl b hb hno i hi) (rfEval_output bs cs xs h _ hfl),
    saved_eq_getD h]

/-- What does not depend on a control keeps its value. -/
theorem rfEval_off {bs : Blocks V T A} (wf : WF bs) (cs : List BV) (xs : List V) (h : Heap V T A)
    (hfl : ∀ v, (h v).isControl = false) (hcon : ConsistentOff bs cs h) :
    ∀ v, ¬ Reach bs (· ∈ cs) v → saved (rfEval bs cs xs h) v = saved h v := by
  apply tape_induction wf (P := fun v => ¬ Reach bs (· ∈ cs) v →
    saved (rfEval bs cs xs h) v = saved h v)
  · intro v hv hr
    rw [saved, rfEval_leaf bs cs xs h v (fun h => hr (.base h)) hv]; rfl
  · intro b hb ih o ho hr
    obtain ⟨i, hi, rfl⟩ := List.getElem_of_mem ho
    have hnc : b.outs[i] ∉ cs := fun h => hr (.base h)
    by_cases hc : ∃ o ∈ b.outs, o ∈ cs
    · exact saved_congr (rfEval_output bs cs xs h _ hfl) (rfEval_block_control wf cs xs h b hb hc i hi hnc)
    · push Not at hc
      have hnd : ¬ DependsOnControl bs cs b := by
        rintro ⟨d, hd, hr'⟩
        exact hr (.step hb hd hr' ho)
      rw [rfEval_saved_block wf cs xs h hfl b hb hc i hi]
      rw [List.map_congr_left fun d hd => ih d hd fun h => hnd ⟨d, hd, h⟩]
      cases hx : b.recomputeC (b.deps.map (saved h)) i with
      | none => rfl
      | some x => exact (hcon b hb hnd hc i hi x hx).symm

/-- After a complete evaluation with controls `cs` the values are consistent, whatever happened before. -/
theorem consistent_after_evaluation {bs : Blocks V T A} (wf : WF bs) (cs : List BV) (xs : List V)
    (h : Heap V T A) (hfl : ∀ v, (h v).isControl = false) :
    ConsistentOff bs cs (rfEval bs cs xs h) := by
  intro b hb _ hc i hi x hx
  rw [rfEval_saved_block wf cs xs h hfl b hb hc i hi, hx]; rfl

/-- Dropping the blocks that do not depend on a control does not change any value. -/
theorem rfEval_filter_controls {bs : Blocks V T A} (wf : WF bs) (cs : List BV) (xs : List V)
    (h : Heap V T A) (hfl : ∀ v, (h v).isControl = false) (hcon : ConsistentOff bs cs h)
    (p : Block V T A → Bool) (hp : ∀ b ∈ bs, p b = true ↔ DependsOnControl bs cs b) :
    ∀ v, saved (rfEval (bs.filter p) cs xs h) v = saved (rfEval bs cs xs h) v := by
  have wf' := wf.filter p
  have dropped : ∀ b ∈ bs, ¬ DependsOnControl bs cs b → ∀ o ∈ b.outs, ∀ b' ∈ bs.filter p, o ∉ b'.outs := by
    intro b hb hn o ho b' hb' ho'
    obtain ⟨h1, h2⟩ := List.mem_filter.1 hb'
    have := wf.unique_producer hb h1 ho ho'
    subst this
    exact hn ((hp b hb).1 h2)
  apply tape_induction wf (P := fun v => saved (rfEval (bs.filter p) cs xs h) v = saved (rfEval bs cs xs h) v)
  · intro v hv
    by_cases hc : v ∈ cs
    · unfold saved; rw [rfEval_control_indep (bs.filter p) bs cs xs h v hc]
    · unfold saved
      rw [rfEval_leaf bs cs xs h v hc hv,
        rfEval_leaf (bs.filter p) cs xs h v hc fun b hb => hv b (List.mem_filter.1 hb).1]
  · intro b hb ih o ho
    by_cases hoc : o ∈ cs
    · unfold saved; rw [rfEval_control_indep (bs.filter p) bs cs xs h o hoc]
    obtain ⟨i, hi, rfl⟩ := List.getElem_of_mem ho
    by_cases hdep : DependsOnControl bs cs b
    · have hb' : b ∈ bs.filter p := List.mem_filter.2 ⟨hb, (hp b hb).2 hdep⟩
      by_cases hc : ∃ o ∈ b.outs, o ∈ cs
      · refine saved_congr ?_ ?_
        · rw [rfEval_output _ _ _ _ _ hfl, rfEval_output _ _ _ _ _ hfl]
        · rw [rfEval_block_control wf cs xs h b hb hc i hi hoc,
            rfEval_block_control wf' cs xs h b hb' hc i hi hoc]
      · push Not at hc
        rw [rfEval_saved_block wf cs xs h hfl b hb hc i hi, rfEval_saved_block wf' cs xs h hfl b hb' hc i hi,
          List.map_congr_left ih]
    · have hl := rfEval_leaf (bs.filter p) cs xs h b.outs[i] hoc (dropped b hb hdep _ ho)
      have hnr : ¬ Reach bs (· ∈ cs) b.outs[i] := by
        intro hr
        cases hr with
        | base h => exact hoc h
        | step hb2 hd hr ho2 =>
          have := wf.unique_producer hb hb2 ho ho2
          subst this
          exact hdep ⟨_, hd, hr⟩
      rw [rfEval_off wf cs xs h hfl hcon _ hnr]
      unfold saved; rw [hl]

/-- Dropping blocks that do not contribute to a functional does not change what contributes. -/
theorem rfEval_filter_functionals {bs : Blocks V T A} (wf : WF bs) (cs fs : List BV) (xs : List V)
    (h : Heap V T A) (hfl : ∀ v, (h v).isControl = false)
    (p : Block V T A → Bool) (hp : ∀ b ∈ bs, p b = true ↔ ContributesTo bs fs b) :
    ∀ v, CoReach bs (· ∈ fs) v → saved (rfEval (bs.filter p) cs xs h) v = saved (rfEval bs cs xs h) v := by
  have wf' := wf.filter p
  apply tape_induction wf (P := fun v => CoReach bs (· ∈ fs) v →
    saved (rfEval (bs.filter p) cs xs h) v = saved (rfEval bs cs xs h) v)
  · intro v hv _
    by_cases hc : v ∈ cs
    · unfold saved; rw [rfEval_control_indep (bs.filter p) bs cs xs h v hc]
    · unfold saved
      rw [rfEval_leaf bs cs xs h v hc hv,
        rfEval_leaf (bs.filter p) cs xs h v hc fun b hb => hv b (List.mem_filter.1 hb).1]
  · intro b hb ih o ho hco
    by_cases hoc : o ∈ cs
    · unfold saved; rw [rfEval_control_indep (bs.filter p) bs cs xs h o hoc]
    obtain ⟨i, hi, rfl⟩ := List.getElem_of_mem ho
    have hb' : b ∈ bs.filter p := List.mem_filter.2 ⟨hb, (hp b hb).2 ⟨_, ho, hco⟩⟩
    by_cases hc : ∃ o ∈ b.outs, o ∈ cs
    · refine saved_congr ?_ ?_
      · rw [rfEval_output _ _ _ _ _ hfl, rfEval_output _ _ _ _ _ hfl]
      · rw [rfEval_block_control wf cs xs h b hb hc i hi hoc,
          rfEval_block_control wf' cs xs h b hb' hc i hi hoc]
    · push Not at hc
      rw [rfEval_saved_block wf cs xs h hfl b hb hc i hi, rfEval_saved_block wf' cs xs h hfl b hb' hc i hi,
        List.map_congr_left fun d hd => ih d hd (.step hb ho hco hd)]

theorem optimizeTape_flatten {steps steps' : List (Blocks V T A)} (wf : WF steps.flatten) (cs : List BV)
    (J : BV) (h : optimizeTape steps cs J = some steps') :
    ∃ (bs₁ : Blocks V T A) (p q : Block V T A → Bool), bs₁ = steps.flatten.filter p ∧
      steps'.flatten = bs₁.filter q ∧ WF bs₁ ∧
      (∀ b ∈ steps.flatten, p b = true ↔ DependsOnControl steps.flatten cs b) ∧
      (∀ b ∈ bs₁, q b = true ↔ ContributesTo bs₁ [J] b) := by
  classical
  unfold optimizeTape at h
  simp only [Option.map_eq_some_iff] at h
  obtain ⟨s₁, h1, rfl⟩ := h
  have hs := optimize_for_controls_exact wf cs h1
  have hflat : s₁.flatten = steps.flatten.filter fun b => decide (DependsOnControl steps.flatten cs b) := by
    rw [hs, flatten_map_filter]
  have wf₁ : WF s₁.flatten := by rw [hflat]; exact wf.filter _
  refine ⟨s₁.flatten, _, fun b => decide (ContributesTo s₁.flatten [J] b), hflat, ?_, wf₁,
    fun b _ => decide_eq_true_iff, fun b _ => decide_eq_true_iff⟩
  rw [optimize_for_functionals_exact wf₁, flatten_map_filter]

/-- **C08, values (partial).**  On the optimised tape the reduced functional returns what it
returned before, for all control values.  `hcon` holds on a tape as recorded
(`Session.recorded_consistent`) and after any complete evaluation of the same reduced functional
(`consistent_after_evaluation`); without it the statement is false, see `optimize_changes_value`. -/
theorem optimize_preserves_value_partial [Mul V] {steps steps' : List (Blocks V T A)}
    (wf : WF steps.flatten) (cs : List BV) (J : BV) (h : Heap V T A)
    (hopt : optimizeTape steps cs J = some steps')
    (hfl : ∀ v, (h v).isControl = false) (hcon : ConsistentOff steps.flatten cs h)
    (scale : V) (xs : List V) :
    (rfCall steps'.flatten J cs scale xs h).map (·.1) = (rfCall steps.flatten J cs scale xs h).map (·.1) := by
  obtain ⟨bs₁, p, q, rfl, h2, wf₁, hp, hq⟩ := optimizeTape_flatten wf cs J hopt
  unfold rfCall
  split
  · rfl
  · simp only [Option.map_some]
    rw [h2, rfEval_filter_functionals wf₁ cs [J] xs h hfl q hq J (.base (by simp)),
      rfEval_filter_controls wf cs xs h hfl hcon p hp J]

/-- The tape with fewer blocks resets fewer variables; the derivative is right for controls that are
still on the optimised tape, are the functional, or carry no adjoint value. -/
theorem gradient_on_optimized [Add A] [Zero A] {steps steps' : List (Blocks V T A)}
    (wf : WF steps.flatten) (cs : List BV) (J : BV) (seed : A)
    (hopt : optimizeTape steps cs J = some steps') (h h' : Heap V T A)
    (hmk : ∀ v, (h v).marked = false) (hmk' : ∀ v, (h' v).marked = false)
    (hadj : ∀ v, (h v).adj = (h' v).adj)
    (hsv : ∀ b ∈ steps'.flatten, ∀ d ∈ b.deps, saved h d = saved h' d)
    (hon : ∀ c ∈ cs, OnTape steps'.flatten c ∨ c = J ∨ (h c).adj = none) :
    (computeGradient steps.flatten J cs seed h).1 = (computeGradient steps'.flatten J cs seed h').1 := by
  obtain ⟨bs₁, p, q, rfl, h2, wf₁, hp, hq⟩ := optimizeTape_flatten wf cs J hopt
  set bs := steps.flatten
  rw [h2] at hsv hon ⊢
  -- controls
  have e1 : (computeGradient bs J cs seed h).1 = (computeGradient (bs.filter p) J cs seed h).1 := by
    have hreach : ∀ v, v ∈ findRelevantNodes bs cs ↔ v ∈ findRelevantNodes (bs.filter p) cs := by
      intro v
      rw [findRelevantNodes_iff wf, findRelevantNodes_iff wf₁,
        reach_filter fun b hb h => (hp b hb).2 h]
    refine gradient_filter bs p J cs seed h h (fun _ => rfl) (fun _ _ _ _ _ => rfl)
      (fun _ _ _ d _ => hreach d) (fun _ => rfl)
      (fun g => ∀ v, (g v).marked = true ↔ v ∈ findRelevantNodes bs cs) ?_ ?_ ?_ ?_
    · intro b _ g hg v
      rw [Block.evaluateAdj_apply]; exact hg v
    · intro b hb hk g hg
      funext v
      rw [Block.evaluateAdj_apply]
      have : b.adjAfter true g v = (g v).adj := by
        unfold Block.adjAfter
        by_cases hv : v ∈ b.deps
        · have hm : (g v).marked = false := by
            rw [Bool.eq_false_iff]
            intro hm
            have := (hp b hb).2 ⟨v, hv, (findRelevantNodes_iff wf cs v).1 ((hg v).1 hm)⟩
            rw [hk] at this; cases this
          rw [hm]; simp
        · rw [entries_nil_of_not_mem hv]; simp
      rw [this]
    · intro g _ hg v
      rw [hg v, hmk v]; simp
    · intro c hc
      exact (hon c hc).imp OnTape.of_filter id
  -- functionals
  rw [e1]
  refine gradient_filter (bs.filter p) q J cs seed h h' hadj ?_ ?_ (fun v => by rw [hmk, hmk'])
    (fun g => ∀ v, OnTape (bs.filter p) v → (g v).adj.isSome → CoReach (bs.filter p) (· ∈ [J]) v) ?_ ?_ ?_ hon
  · intro b hb hk d hd
    exact hsv b (List.mem_filter.2 ⟨hb, hk⟩) d hd
  · intro b hb hk d hd
    obtain ⟨o, ho, hco⟩ := (hq b hb).1 hk
    have hcod : CoReach (bs.filter p) (· ∈ [J]) d := .step hb ho hco hd
    rw [findRelevantNodes_iff wf₁, findRelevantNodes_iff (wf₁.filter q)]
    refine ⟨fun hr => ?_, reach_filter_mono⟩
    clear hd
    induction hr with
    | base h => exact .base h
    | step hb2 hd2 _ ho2 ih =>
      exact .step (List.mem_filter.2 ⟨hb2, (hq _ hb2).2 ⟨_, ho2, hcod⟩⟩) hd2 (ih (.step hb2 ho2 hcod hd2)) ho2
  · intro b hb g hg v hv hs
    rw [Block.evaluateAdj_apply] at hs
    simp only [Block.adjAfter] at hs
    split at hs
    · exact hg v hv hs
    · rename_i hn
      by_cases hd : v ∈ b.deps
      · have hn' : ∃ o ∈ b.outs, (g o).adj.isSome := by
          by_contra hcon
          push Not at hcon
          apply hn
          rw [List.all_eq_true]
          intro x hx
          obtain ⟨o, ho, rfl⟩ := List.mem_map.1 hx
          simpa using hcon o ho
        obtain ⟨o, ho, hos⟩ := hn'
        exact CoReach.step hb ho (hg o ⟨b, hb, Or.inr ho⟩ hos) hd
      · rw [entries_nil_of_not_mem hd] at hs
        simp only [List.foldl_nil, ite_self] at hs
        exact hg v hv hs
  · intro b hb hk g hg
    funext v
    rw [Block.evaluateAdj_apply]
    have hall : (b.outs.map fun o => (g o).adj).all Option.isNone = true := by
      rw [List.all_eq_true]
      intro x hx
      obtain ⟨o, ho, rfl⟩ := List.mem_map.1 hx
      rw [Option.isNone_iff_eq_none, ← Option.not_isSome_iff_eq_none]
      intro hs
      have := (hq b hb).2 ⟨o, ho, hg o ⟨b, hb, Or.inr ho⟩ hs⟩
      rw [hk] at this; cases this
    unfold Block.adjAfter
    rw [if_pos hall]
  · intro g hg _ v hv hs
    by_cases hJ : v = J
    · exact .base (by simp [hJ])
    · rw [hg v hJ hv] at hs; cases hs

/-- **C08, derivatives (partial).**  Evaluating at `xs` and differentiating on the optimised tape
gives the list obtained on the unoptimised tape, provided that each control is still on the optimised
tape, or is the functional, or carries no adjoint value from an earlier computation.  Without that the
statement is false, see `optimize_stale_derivative`. -/
theorem optimize_preserves_derivative_partial [Add A] [Zero A] [Mul A] {steps steps' : List (Blocks V T A)}
    (wf : WF steps.flatten) (cs : List BV) (J : BV) (scale seed : A)
    (hopt : optimizeTape steps cs J = some steps') (h : Heap V T A)
    (hfl : ∀ v, (h v).isControl = false) (hmk : ∀ v, (h v).marked = false)
    (hcon : ConsistentOff steps.flatten cs h) (xs : List V)
    (hon : ∀ c ∈ cs, OnTape steps'.flatten c ∨ c = J ∨ (h c).adj = none) :
    (rfDerivative steps'.flatten J cs scale seed (rfEval steps'.flatten cs xs h)).1
      = (rfDerivative steps.flatten J cs scale seed (rfEval steps.flatten cs xs h)).1 := by
  unfold rfDerivative
  have fr : ∀ (bs : Blocks V T A) (v : BV), (rfEval bs cs xs h v).marked = (h v).marked ∧
      (rfEval bs cs xs h v).adj = (h v).adj := by
    intro bs v
    obtain ⟨c, hc⟩ := rfEval_frame bs cs xs h v (fun c _ => hfl c)
    rw [hc]; exact ⟨rfl, rfl⟩
  refine (gradient_on_optimized wf cs J _ hopt _ _ (fun v => ?_) (fun v => ?_) (fun v => ?_) ?_ ?_).symm
  · rw [(fr _ v).1, hmk]
  · rw [(fr _ v).1, hmk]
  · rw [(fr _ v).2, (fr _ v).2]
  · obtain ⟨bs₁, p, q, rfl, h2, wf₁, hp, hq⟩ := optimizeTape_flatten wf cs J hopt
    rw [h2]
    intro b hb d hd
    obtain ⟨hb1, hb2⟩ := List.mem_filter.1 hb
    obtain ⟨o, ho, hco⟩ := (hq b hb1).1 hb2
    rw [rfEval_filter_functionals wf₁ cs [J] xs h hfl q hq d (.step hb1 ho hco hd),
      rfEval_filter_controls wf cs xs h hfl hcon p hp d]
  · intro c hc
    rw [(fr _ c).2]; exact hon c hc

/-! ## Examples and refutations -/

/-- Two timesteps: `v₂ = 2*v₀` and `v₃ = v₂ + v₁`. -/
def exSteps : List (Blocks Int Int Int) := [[exDouble 0 2], [exAdd 2 1 3]]

theorem exSteps_wf : WF exSteps.flatten := exTape_wf

/-- Non-vacuity of the theorems of this file: optimising for the control `v₁` and the functional `v₃` drops
the first block and leaves its timestep empty. -/
example : optimizeTape exSteps [1] 3 = some [[], [exAdd 2 1 3]] ∧
    optimizeForControls exSteps [0, 2] = none ∧
    ConsistentOff exSteps.flatten [1] (rfEval exTape [1] [0] exHeap) ∧
    (∀ v, (rfEval exTape [1] [0] exHeap v).isControl = false) ∧
    OnTape [exAdd 2 1 3] 1 := by
  refine ⟨rfl, rfl, consistent_after_evaluation exTape_wf [1] [0] exHeap (fun _ => rfl), ?_,
    ⟨_, List.mem_singleton_self _, by simp [exAdd]⟩⟩
  intro v
  obtain ⟨c, hc⟩ := rfEval_frame exTape [1] [0] exHeap v (fun _ _ => rfl)
  rw [hc]; rfl

/-- **C08 is false after evaluations of another reduced functional.**  Another reduced functional was
evaluated with the intermediate variable `v₂` as control.  Then optimising the tape for the control `v₁` changes
the value of the functional from `5` to `105`: the unoptimised tape recomputes `v₂`, the optimised one
has lost the block and keeps the override. -/
theorem optimize_changes_value :
    ∃ (steps steps' : List (Blocks Int Int Int)) (h₀ : Heap Int Int Int) (J : BV) (other cs : List BV) (ys xs : List Int),
      WF steps.flatten ∧ (∀ v, (h₀ v).ckpt = none ∧ (h₀ v).adj = none ∧ (h₀ v).isControl = false) ∧
      optimizeTape steps cs J = some steps' ∧
      (rfCall steps'.flatten J cs 1 xs (rfEval steps.flatten other ys h₀)).map (·.1)
        ≠ (rfCall steps.flatten J cs 1 xs (rfEval steps.flatten other ys h₀)).map (·.1) :=
  ⟨exSteps, [[], [exAdd 2 1 3]], exHeap, 3, [2], [1], [100], [5], exSteps_wf,
    fun _ => ⟨rfl, rfl, rfl⟩, rfl, by decide⟩

/-- **C08 is false for derivatives after a gradient of another functional.**  Two functionals `v₂ = 2*v₀` and
`v₃ = 2*v₁` on one tape.  After the gradient of `v₂`, optimising the tape for `v₃` makes the derivative of
`v₃` with respect to `v₀` the stale `2` instead of `0`. -/
theorem optimize_stale_derivative :
    ∃ (steps steps' : List (Blocks Int Int Int)) (h₀ : Heap Int Int Int) (J J' : BV) (cs : List BV),
      WF steps.flatten ∧ (∀ v, (h₀ v).ckpt = none ∧ (h₀ v).adj = none ∧ (h₀ v).isControl = false) ∧
      optimizeTape steps cs J = some steps' ∧
      (computeGradient steps.flatten J cs 1 (computeGradient steps.flatten J' cs 1 h₀).2).1 = [0, 2] ∧
      (computeGradient steps'.flatten J cs 1 (computeGradient steps.flatten J' cs 1 h₀).2).1 = [2, 2] := by
  refine ⟨[[exDouble 0 2, exDouble 1 3]], [[exDouble 1 3]], exHeap, 3, 2, [0, 1], ?_,
    fun _ => ⟨rfl, rfl, rfl⟩, rfl, by decide, by decide⟩
  exact ⟨by intro b hb; simp at hb; rcases hb with rfl | rfl <;> simp [exDouble],
    by intro b hb; simp at hb; rcases hb with rfl | rfl <;> simp [exDouble], by simp [exDouble]⟩

end Pyadjoint
