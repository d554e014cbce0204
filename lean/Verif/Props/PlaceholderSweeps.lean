import Verif.Props.Placeholder
import Verif.Props.SecondOrder
import Verif.Proofs.HistoryBlocks

/-!
# Placeholders: uses at any position, tangents and Hessians (C36)
-/

namespace Pyadjoint
namespace Ph

variable {V T A : Type*} {res : BV → BV} {κ : BV → V}

/-! ## Evaluation, wherever placeholders are used -/

/-- In the evaluation at `xs` every use of a placeholder `d` reads the value `κ d`: that is the value of its target when the blocks before
the use have been replayed. -/
def ReadAs (res : BV → BV) (κ : BV → V) (bs : Blocks V T A) (cs : List BV) (xs : List V) (h : Heap V T A) : Prop :=
  ∀ p b s, bs = p ++ b :: s → ∀ d ∈ b.deps, res d ≠ d → κ d = saved (rfEval res p cs xs h) (res d)

/-- Every placeholder is used only after the block that computes the variable it stands for, or its target is not computed on the tape. -/
structure Late (res : BV → BV) (bs : Blocks V T A) : Prop where
  order : bs.Pairwise fun b b' => ∀ d ∈ b.deps, res d ≠ d → res d ∉ b'.outs
  self : ∀ b ∈ bs, ∀ d ∈ b.deps, res d ≠ d → res d ∉ b.outs
  outs : ∀ b ∈ bs, ∀ o ∈ b.outs, res o = o

/-- The blocks with every placeholder replaced by its target. -/
def subst (res : BV → BV) (bs : Blocks V T A) : Blocks V T A := bs.map fun b => { b with deps := b.deps.map res }

theorem saved_rfEval_prefix (p : Blocks V T A) (cs : List BV) (xs : List V) (h : Heap V T A) (v : BV) :
    saved (rfEval res p cs xs h) v = saved (recompute res p (markControls cs true (updateControls cs xs h))) v := by
  unfold rfEval
  simp only [saved_markControls]

/-- **C36, values.** Wherever placeholders are used: if all uses of each placeholder read one value, the evaluation is the ordinary one of the
tape on which the placeholders are variables that hold these values. -/
theorem placeholder_evaluation_read (bs : Blocks V T A) (hout : ∀ b ∈ bs, ∀ o ∈ b.outs, res o = o) (cs : List BV)
    (hcs : ∀ c ∈ cs, res c = c) (xs : List V) (h : Heap V T A) (hr : ReadAs res κ bs cs xs h) :
    Pyadjoint.rfEval bs cs xs (hold res κ h) = hold res κ (rfEval res bs cs xs h) := by
  have key : ∀ (l p : Blocks V T A) (g : Heap V T A), bs = p ++ l → g = recompute res p (markControls cs true (updateControls cs xs h)) →
      Pyadjoint.recompute l (hold res κ g) = hold res κ (recompute res l g) := by
    intro l
    induction l with
    | nil => intro p g _ _; rfl
    | cons b l ih =>
      intro p g hp hg
      obtain ⟨h1, _⟩ := block_recompute_hold (κ := κ) b (hout b (by rw [hp]; simp)) g (fun d hd hne => by
        rw [hr p b l hp d hd hne, saved_rfEval_prefix, hg])
      unfold Pyadjoint.recompute recompute at ih ⊢
      rw [List.foldl_cons, List.foldl_cons, h1]
      refine ih (p ++ [b]) _ (by rw [hp]; simp) ?_
      rw [hg]
      unfold recompute
      rw [List.foldl_append]
      rfl
  unfold Pyadjoint.rfEval rfEval
  simp only []
  have := key bs [] (markControls cs true (updateControls cs xs h)) rfl rfl
  rw [updateControls_hold cs xs h hcs, markControls_hold, this, markControls_hold]

/-- Replacing placeholders by their targets: the replay is literally the same. -/
theorem rfEval_subst (bs : Blocks V T A) (cs : List BV) (xs : List V) (h : Heap V T A) :
    rfEval res bs cs xs h = Pyadjoint.rfEval (subst res bs) cs xs h := by
  have key : ∀ g : Heap V T A, recompute res bs g = Pyadjoint.recompute (subst res bs) g := by
    intro g
    unfold recompute Pyadjoint.recompute subst
    rw [List.foldl_map]
    congr 1
    funext g b
    unfold Block.recompute Pyadjoint.Block.recompute
    simp only [List.map_map]
    rfl
  unfold rfEval Pyadjoint.rfEval
  simp only [key]

theorem recompute_frame (l : Blocks V T A) (g : Heap V T A) (v : BV) (hv : ∀ b ∈ l, v ∉ b.outs) : recompute res l g v = g v := by
  induction l generalizing g with
  | nil => rfl
  | cons b l ih =>
    have e : Block.recompute res b false g =
      ({ b with recomputeC := fun _ i => b.recomputeC (b.deps.map fun d => saved g (res d)) i } : Block V T A).recompute false g := rfl
    have : Block.recompute res b false g v = g v := by
      rw [e, Block.recompute_apply]
      unfold Block.ckptAfter
      simp only []
      rw [entries_nil_of_not_mem (hv b (by simp))]
      simp
    unfold recompute at ih ⊢
    rw [List.foldl_cons, ih _ fun b' hb' => hv b' (by simp [hb']), this]

/-- **C36, late uses.** A placeholder used after its target's block holds, at every use, the value the target has after the evaluation. -/
theorem late_readAs (bs : Blocks V T A) (hl : Late res bs) (cs : List BV) (xs : List V) (h : Heap V T A) :
    ReadAs res (fun d => saved (rfEval res bs cs xs h) (res d)) bs cs xs h := by
  intro p b s hp d hd hne
  show saved (rfEval res bs cs xs h) (res d) = _
  rw [saved_rfEval_prefix, saved_rfEval_prefix, hp]
  have e : recompute res (p ++ b :: s) (markControls cs true (updateControls cs xs h))
      = recompute res (b :: s) (recompute res p (markControls cs true (updateControls cs xs h))) := by
    unfold recompute; rw [List.foldl_append]
  rw [e]
  unfold saved
  rw [recompute_frame (b :: s) _ (res d)]
  intro b' hb'
  rcases List.mem_cons.1 hb' with rfl | hb'
  · exact hl.self b' (by rw [hp]; simp) d hd hne
  · have := hl.order
    rw [hp, List.pairwise_append] at this
    exact (List.pairwise_cons.1 this.2.1).1 b' hb' d hd hne

theorem subst_wf {bs : Blocks V T A} (wf : WF bs) (hl : Late res bs) : WF (subst res bs) := by
  have hd : ∀ b : Block V T A, ∀ d, d ∈ b.deps.map res → ∃ e ∈ b.deps, res e = d := fun b d h => List.mem_map.1 h
  refine ⟨?_, ?_, ?_⟩
  · intro b hb
    obtain ⟨b, hb', rfl⟩ := List.mem_map.1 hb
    exact wf.nodup b hb'
  · intro b hb
    obtain ⟨b, hb', rfl⟩ := List.mem_map.1 hb
    intro d h ho
    obtain ⟨e, he, rfl⟩ := hd b d h
    by_cases hr : res e = e
    · rw [hr] at ho; exact wf.self b hb' e he ho
    · exact hl.self b hb' e he hr ho
  · unfold subst
    rw [List.pairwise_map]
    refine List.Pairwise.imp₂ ?_ wf.later hl.order
    intro b b' h1 h2
    refine ⟨fun d h ho => ?_, h1.2⟩
    obtain ⟨e, he, rfl⟩ := hd b d h
    by_cases hr : res e = e
    · rw [hr] at ho; exact h1.1 e he ho
    · exact h2 e he hr ho

/-- **C36, late uses, all sequences of evaluations.** With every placeholder used only after its target's block, `rf(x)` is the ordinary evaluation
of the tape with the placeholders replaced by their targets, and nothing of the history matters. -/
theorem late_history {bs : Blocks V T A} (wf : WF bs) (hl : Late res bs) (cs : List BV) (hnd : cs.Nodup)
    (htot : ∀ b ∈ bs, ∀ inputs i, inputs.length = b.deps.length → i < b.outs.length → (b.recomputeC inputs i).isSome)
    (h : Heap V T A) (hfl : ∀ v, (h v).isControl = false) (l : List (List V)) (xs : List V) (hlen : xs.length = cs.length) (v : BV) :
    saved (runs res bs cs (l ++ [xs]) h) v = saved (Pyadjoint.rfEval (subst res bs) cs xs h) v := by
  have hw := subst_wf wf hl
  have hinv : ∀ (l : List (List V)) (g : Heap V T A), (∀ v, (g v).isControl = false) →
      (∀ v, (runs res bs cs l g v).output = (g v).output ∧ (runs res bs cs l g v).isControl = false) ∧
      ∀ v, Kept (subst res bs) cs v → (runs res bs cs l g v).ckpt = (g v).ckpt := by
    intro l
    induction l with
    | nil => intro g hg; exact ⟨fun v => ⟨rfl, hg v⟩, fun _ _ => rfl⟩
    | cons ys l ih =>
      intro g hg
      have hfr : ∀ v, (rfEval res bs cs ys g v).output = (g v).output ∧ (rfEval res bs cs ys g v).isControl = false := by
        intro v
        rw [rfEval_subst]
        obtain ⟨c, hc⟩ := rfEval_frame (subst res bs) cs ys g v (fun c _ => hg c)
        rw [hc]
        exact ⟨rfl, hg v⟩
      obtain ⟨i1, i2⟩ := ih (rfEval res bs cs ys g) fun v => (hfr v).2
      refine ⟨fun v => ⟨(i1 v).1.trans (hfr v).1, (i1 v).2⟩, fun v hk => (i2 v hk).trans ?_⟩
      rw [rfEval_subst]
      rcases hk.2 with hlf | ⟨b, hb, hvb, o, ho, hoc⟩
      · rw [rfEval_leaf (subst res bs) cs ys _ v hk.1 hlf]
      · obtain ⟨i, hi, rfl⟩ := List.mem_iff_getElem.1 hvb
        exact rfEval_block_control hw cs ys _ b hb ⟨o, ho, hoc⟩ i hi hk.1
  obtain ⟨i1, i2⟩ := hinv l h hfl
  have e : runs res bs cs (l ++ [xs]) h = rfEval res bs cs xs (runs res bs cs l h) := by
    unfold runs; rw [List.foldl_append]; rfl
  rw [e, rfEval_subst]
  refine evaluation_history_independent hw cs hnd xs hlen ?_ _ _ (fun v => (i1 v).2) hfl (fun v => (i1 v).1) i2 v
  intro b hb inputs i hi ho
  obtain ⟨b, hb', rfl⟩ := List.mem_map.1 hb
  exact htot b hb' inputs i (by simpa using hi) ho

/-! ## The tangent and Hessian sweeps -/

@[simp] theorem hold_tlm (h : Heap V T A) (v : BV) : (hold res κ h v).tlm = (h v).tlm := by
  obtain ⟨c, hc⟩ := hold_apply (res := res) (κ := κ) h v; rw [hc]

@[simp] theorem hold_hess (h : Heap V T A) (v : BV) : (hold res κ h v).hess = (h v).hess := by
  obtain ⟨c, hc⟩ := hold_apply (res := res) (κ := κ) h v; rw [hc]

theorem block_evaluateTlm_hold [Add T] (b : Block V T A) (m : Bool) (h : Heap V T A)
    (hκ : ∀ d ∈ b.deps, res d ≠ d → κ d = saved h (res d)) :
    b.evaluateTlm m (hold res κ h) = hold res κ (Ph.Block.evaluateTlm res b m h) ∧
    ∀ v, saved (Ph.Block.evaluateTlm res b m h) v = saved h v := by
  let b' : Block V T A := { b with tlmC := fun _ a i => b.tlmC (b.deps.map fun d => saved h (res d)) a i }
  have e : Ph.Block.evaluateTlm res b m h = b'.evaluateTlm m h := rfl
  constructor
  · funext v
    rw [e, Block.evaluateTlm_apply]
    have h1 : b.tlmAfter m (hold res κ h) v = b'.tlmAfter m h v := by
      unfold Block.tlmAfter
      simp only [hold_tlm, hold_marked]
      rw [saved_hold_deps h b.deps hκ]
    rw [h1]
    unfold hold
    rw [Block.evaluateTlm_apply]
    split <;> rfl
  · intro v
    rw [e]
    exact saved_congr (by rw [Block.evaluateTlm_apply]) (by rw [Block.evaluateTlm_apply])

theorem block_evaluateHessian_hold [Add A] (b : Block V T A) (m : Bool) (h : Heap V T A)
    (hκ : ∀ d ∈ b.deps, res d ≠ d → κ d = saved h (res d)) :
    b.evaluateHessian m (hold res κ h) = hold res κ (Ph.Block.evaluateHessian res b m h) ∧
    ∀ v, saved (Ph.Block.evaluateHessian res b m h) v = saved h v := by
  let b' : Block V T A := { b with hessC := fun _ a c i t => b.hessC (b.deps.map fun d => saved h (res d)) a c i t }
  have e : Ph.Block.evaluateHessian res b m h = b'.evaluateHessian m h := rfl
  have hrel : relevant (hold res κ h) m b.deps = relevant h m b.deps := by
    unfold relevant
    simp only [hold_marked]
  constructor
  · funext v
    rw [e, Block.evaluateHessian_apply]
    have h1 : b.hessAfter m (hold res κ h) v = b'.hessAfter m h v := by
      unfold Block.hessAfter
      rw [hrel]
      simp only [hold_hess, hold_marked, hold_adj, hold_tlm]
      rw [saved_hold_deps h b.deps hκ]
    rw [h1]
    unfold hold
    rw [Block.evaluateHessian_apply]
    split <;> rfl
  · intro v
    rw [e]
    exact saved_congr (by rw [Block.evaluateHessian_apply]) (by rw [Block.evaluateHessian_apply])

theorem evaluateTlm_hold [Add T] (bs : Blocks V T A) (m : Bool) (h : Heap V T A)
    (hκ : ∀ b ∈ bs, ∀ d ∈ b.deps, res d ≠ d → κ d = saved h (res d)) :
    Pyadjoint.evaluateTlm bs m (hold res κ h) = hold res κ (evaluateTlm res bs m h) ∧
    ∀ v, saved (evaluateTlm res bs m h) v = saved h v := by
  unfold Pyadjoint.evaluateTlm evaluateTlm
  induction bs generalizing h with
  | nil => exact ⟨rfl, fun _ => rfl⟩
  | cons b l ih =>
    obtain ⟨h1, h2⟩ := block_evaluateTlm_hold (κ := κ) b m h (hκ b (by simp))
    rw [List.foldl_cons, List.foldl_cons, h1]
    obtain ⟨i1, i2⟩ := ih _ fun b' hb' d hd hne => by
      rw [h2]
      exact hκ b' (by simp [hb']) d hd hne
    exact ⟨i1, fun v => (i2 v).trans (h2 v)⟩

theorem evaluateHessian_hold [Add A] (bs : Blocks V T A) (m : Bool) (h : Heap V T A)
    (hκ : ∀ b ∈ bs, ∀ d ∈ b.deps, res d ≠ d → κ d = saved h (res d)) :
    Pyadjoint.evaluateHessian bs m (hold res κ h) = hold res κ (evaluateHessian res bs m h) := by
  unfold Pyadjoint.evaluateHessian evaluateHessian
  have hκ' : ∀ b ∈ bs.reverse, ∀ d ∈ b.deps, res d ≠ d → κ d = saved h (res d) := fun b hb => hκ b (List.mem_reverse.1 hb)
  clear hκ
  generalize bs.reverse = l at hκ'
  induction l generalizing h with
  | nil => rfl
  | cons b l ih =>
    obtain ⟨h1, h2⟩ := block_evaluateHessian_hold (κ := κ) b m h (hκ' b (by simp))
    rw [List.foldl_cons, List.foldl_cons, h1]
    refine ih _ fun b' hb' d hd hne => ?_
    rw [h2]
    exact hκ' b' (by simp [hb']) d hd hne

theorem seedTlm_hold (cs : List BV) (ds : List T) (h : Heap V T A) :
    seedTlm cs ds (hold res κ h) = hold res κ (seedTlm cs ds h) := by
  unfold seedTlm
  generalize cs.zip ds = l
  induction l generalizing h with
  | nil => rfl
  | cons p l ih =>
    rw [List.foldl_cons, List.foldl_cons, ← ih]
    congr 1
    funext v
    by_cases hv : v = p.1
    · subst hv
      rw [Function.update_self]
      unfold hold
      rw [Function.update_self]
      split <;> rfl
    · rw [Function.update_of_ne hv]
      unfold hold
      rw [Function.update_of_ne hv]

/-- **C36, tangents.** Tangents of a tape with placeholders are those of the same tape with every placeholder an ordinary variable that holds its
target's value and is no control. -/
theorem placeholder_tangent [Add T] (bs : Blocks V T A) (m : Bool) (cs : List BV) (ds : List T) (h : Heap V T A)
    (hκ : ∀ b ∈ bs, ∀ d ∈ b.deps, res d ≠ d → κ d = saved h (res d)) (v : BV) :
    (evaluateTlm res bs m (seedTlm cs ds (resetVariables bs .tlm h)) v).tlm
      = (Pyadjoint.evaluateTlm bs m (seedTlm cs ds (resetVariables bs .tlm (hold res κ h))) v).tlm := by
  rw [resetVariables_hold, seedTlm_hold, (evaluateTlm_hold bs m _ ?_).1, hold_tlm]
  intro b hb d hd hne
  rw [hκ b hb d hd hne, saved_seedTlm, saved_resetVariables]

/-- **C36, second derivatives.** The same for `compute_hessian`. -/
theorem placeholder_hessian [Add T] [Add A] [Zero A] (bs : Blocks V T A) (J : BV) (cs : List BV) (ds : List T) (h : Heap V T A)
    (hκ : ∀ b ∈ bs, ∀ d ∈ b.deps, res d ≠ d → κ d = saved h (res d)) :
    computeHessianOf bs J cs ds (hold res κ h)
      = ((computeHessian res bs J cs ds h).1, hold res κ (computeHessian res bs J cs ds h).2) := by
  have upd : ∀ g : Heap V T A, Function.update (hold res κ g) J { hold res κ g J with hess := some 0 }
      = hold res κ (Function.update g J { g J with hess := some 0 }) := by
    intro g
    funext v
    by_cases hv : v = J
    · subst hv
      rw [Function.update_self]
      unfold hold
      rw [Function.update_self]
      split <;> rfl
    · rw [Function.update_of_ne hv]
      unfold hold
      rw [Function.update_of_ne hv]
  have e : (computeHessianOf bs J cs ds (hold res κ h)).2 = hold res κ (computeHessian res bs J cs ds h).2 := by
    have hs1 : ∀ b ∈ bs, ∀ d ∈ b.deps, res d ≠ d → κ d
        = saved (markAll (findRelevantNodes bs cs) true (seedTlm cs ds (resetVariables bs .hessian (resetVariables bs .tlm h)))) (res d) := by
      intro b hb d hd hne
      rw [hκ b hb d hd hne, saved_markAll, saved_seedTlm, saved_resetVariables, saved_resetVariables]
    obtain ⟨t1, t2⟩ := evaluateTlm_hold bs true _ hs1
    unfold computeHessianOf computeHessian
    simp only []
    rw [resetVariables_hold, resetVariables_hold, seedTlm_hold, markAll_hold, t1, markAll_hold, upd, markAll_hold, evaluateHessian_hold,
      markAll_hold]
    intro b hb d hd hne
    have hup : ∀ g : Heap V T A, saved (Function.update g J { g J with hess := some 0 }) (res d) = saved g (res d) := fun g =>
      saved_update_self g J { g J with hess := some 0 } rfl rfl _
    refine (hs1 b hb d hd hne).trans ?_
    rw [saved_markAll (h := Function.update _ _ _), hup, saved_markAll (m := false), t2]
  refine Prod.ext ?_ e
  show cs.map (getHessian (computeHessianOf bs J cs ds (hold res κ h)).2) = cs.map (getHessian (computeHessian res bs J cs ds h).2)
  rw [e]
  refine List.map_congr_left fun c _ => ?_
  unfold getHessian
  rw [hold_hess]

theorem saved_computeGradient [Add A] [Zero A] (bs : Blocks V T A) (J : BV) (cs : List BV) (seed : A) (h : Heap V T A) (v : BV) :
    saved (computeGradient res bs J cs seed h).2 v = saved h v := by
  have key : ∀ (l : Blocks V T A) (g : Heap V T A), saved (l.foldl (fun g b => Block.evaluateAdj res b true g) g) v = saved g v := by
    intro l
    induction l with
    | nil => intro g; rfl
    | cons b l ih =>
      intro g
      rw [List.foldl_cons, ih]
      exact (block_evaluateAdj_hold (κ := fun d => saved g (res d)) b true g (fun _ _ _ => rfl)).2 v
  unfold computeGradient
  simp only [saved_markAll, saved_markControls]
  unfold evaluateAdj
  rw [key]
  simp only [saved_markAll, saved_markControls, saved_update_adj, saved_resetVariables]

/-! ## Exactness -/

/-- **C36, gradients wherever placeholders are used.** If every use of a placeholder read the value its target has after the evaluation, then
the gradient is the derivative of the functional with the placeholders' values held fixed. -/
theorem placeholder_gradient_read_partial [NormedAddCommGroup V] [NormedSpace ℝ V] [AddCommMonoid A]
    {bs : Blocks V T A} (wf : WF bs) (hout : ∀ b ∈ bs, ∀ o ∈ b.outs, res o = o) (J : BV) (cs : List BV) (hnd : cs.Nodup)
    (hcs : ∀ c ∈ cs, res c = c) (h : Heap V T A) (hfl : ∀ v, (h v).isControl = false) (hind : IndependentControls bs cs)
    (x₀ : Fin cs.length → V) (ι : A →+ (V →L[ℝ] ℝ)) (seed : A)
    (hread : ReadAs res κ bs cs (List.ofFn x₀) h)
    (hconv : ∀ b ∈ bs, ∀ d ∈ b.deps, res d ≠ d → κ d = saved (rfEval res bs cs (List.ofFn x₀) h) (res d))
    (hcorrect : ∀ b ∈ bs, (∃ d ∈ b.deps, Reach bs (· ∈ cs) d) →
      CorrectAdjoint ι b (fun j => saved (Pyadjoint.rfEval bs cs (List.ofFn x₀) (hold res κ h)) b.deps[j])
        (fun j => Reach bs (· ∈ cs) b.deps[j]))
    (hon : ∀ c ∈ cs, OnTape bs c ∨ c = J ∨ (h c).adj = none) :
    ∃ grad : Fin cs.length → A,
      (computeGradient res bs J cs seed (rfEval res bs cs (List.ofFn x₀) h)).1 = List.ofFn grad ∧
      HasFDerivAt (fun x : Fin cs.length → V => ι seed (saved (Pyadjoint.rfEval bs cs (List.ofFn x) (hold res κ h)) J))
        (∑ i, (ι (grad i)).comp (ContinuousLinearMap.proj i)) x₀ := by
  obtain ⟨grad, hg, hd⟩ := gradient_exact wf J cs hnd (hold res κ h) (by simp [hfl]) hind x₀ ι seed hcorrect (by simpa using hon)
  refine ⟨grad, ?_, hd⟩
  rw [← hg, placeholder_evaluation_read bs hout cs hcs _ h hread, placeholder_gradient bs J cs seed _ hconv]

/-- **C36, tangents, exactness.** -/
theorem placeholder_tangent_read_partial [NormedAddCommGroup V] [NormedSpace ℝ V] [NormedAddCommGroup A] [NormedSpace ℝ A]
    {bs : Blocks V V A} (wf : WF bs) (hout : ∀ b ∈ bs, ∀ o ∈ b.outs, res o = o) (cs : List BV) (hnd : cs.Nodup)
    (hcs : ∀ c ∈ cs, res c = c) (h : Heap V V A) (hfl : ∀ v, (h v).isControl = false) (hind : IndependentControls bs cs)
    (x₀ dir : Fin cs.length → V)
    (hread : ReadAs res κ bs cs (List.ofFn x₀) h)
    (hconv : ∀ b ∈ bs, ∀ d ∈ b.deps, res d ≠ d → κ d = saved (rfEval res bs cs (List.ofFn x₀) h) (res d))
    (hcorrect : ∀ b ∈ bs, (∃ d ∈ b.deps, Reach bs (· ∈ cs) d) →
      CorrectTangent b (fun j => saved (Pyadjoint.rfEval bs cs (List.ofFn x₀) (hold res κ h)) b.deps[j])
        (fun j => Reach bs (· ∈ cs) b.deps[j]))
    (v : BV) (hv : OnTape bs v) :
    HasDerivAt (fun s : ℝ => saved (Pyadjoint.rfEval bs cs (List.ofFn (x₀ + s • dir)) (hold res κ h)) v)
      ((evaluateTlm res bs false (seedTlm cs (List.ofFn dir) (resetVariables bs .tlm (rfEval res bs cs (List.ofFn x₀) h))) v).tlm.getD 0) 0 := by
  have := (tlm_exact_blocks wf cs hnd (hold res κ h) (by simp [hfl]) hind x₀ dir hcorrect v hv).1
  rw [placeholder_tangent (κ := κ) bs false cs _ _ hconv v, ← placeholder_evaluation_read bs hout cs hcs _ h hread]
  exact this

/-- **C36, second derivatives, exactness.** -/
theorem placeholder_hessian_read_partial [NormedAddCommGroup V] [NormedSpace ℝ V] [NormedAddCommGroup A] [NormedSpace ℝ A]
    {bs : Blocks V V A} (wf : WF bs) (hout : ∀ b ∈ bs, ∀ o ∈ b.outs, res o = o) (J : BV) (cs : List BV) (hnd : cs.Nodup)
    (hcs : ∀ c ∈ cs, res c = c) (h : Heap V V A) (hfl : ∀ v, (h v).isControl = false) (hmk : ∀ v, (h v).marked = false)
    (hind : IndependentControls bs cs) (seed : A) (x₀ dir : Fin cs.length → V) (ι : A →L[ℝ] (V →L[ℝ] ℝ))
    (hread : ReadAs res κ bs cs (List.ofFn x₀) h)
    (hconv : ∀ b ∈ bs, ∀ d ∈ b.deps, res d ≠ d → κ d = saved (rfEval res bs cs (List.ofFn x₀) h) (res d))
    (hadj : ∀ᶠ s in nhds (0 : ℝ), ∀ b ∈ bs, (∃ d ∈ b.deps, Reach bs (· ∈ cs) d) →
      CorrectAdjoint (ι : A →+ (V →L[ℝ] ℝ)) b
        (fun j => saved (Pyadjoint.rfEval bs cs (List.ofFn (x₀ + s • dir)) (hold res κ h)) b.deps[j])
        (fun j => Reach bs (· ∈ cs) b.deps[j]))
    (htan : ∀ b ∈ bs, (∃ d ∈ b.deps, Reach bs (· ∈ cs) d) →
      CorrectTangent b (fun j => saved (Pyadjoint.rfEval bs cs (List.ofFn x₀) (hold res κ h)) b.deps[j])
        (fun j => Reach bs (· ∈ cs) b.deps[j]))
    (hhess : ∀ b ∈ bs, (∃ d ∈ b.deps, Reach bs (· ∈ cs) d) →
      CorrectHessian b (fun j => saved (Pyadjoint.rfEval bs cs (List.ofFn x₀) (hold res κ h)) b.deps[j])
        (fun j => Reach bs (· ∈ cs) b.deps[j]))
    (hon : ∀ c ∈ cs, OnTape bs c ∨ c = J ∨ ((h c).adj = none ∧ (h c).hess = none)) :
    ∃ hess : Fin cs.length → A,
      (computeHessian res bs J cs (List.ofFn dir) (computeGradient res bs J cs seed (rfEval res bs cs (List.ofFn x₀) h)).2).1
        = List.ofFn hess ∧
      ∀ (i : Fin cs.length) (w : V),
        HasDerivAt (fun s : ℝ => fderiv ℝ
            (fun x : Fin cs.length → V => ι seed (saved (Pyadjoint.rfEval bs cs (List.ofFn x) (hold res κ h)) J)) (x₀ + s • dir)
            (Pi.single i w)) (ι (hess i) w) 0 := by
  obtain ⟨hess, h1, h2⟩ := hessian_exact_blocks wf J cs hnd (hold res κ h) (by simp [hfl]) (by simp [hmk]) hind seed x₀ dir ι hadj htan hhess
    (by simpa using hon)
  refine ⟨hess, ?_, h2⟩
  have hs : ∀ v, saved (computeGradient res bs J cs seed (rfEval res bs cs (List.ofFn x₀) h)).2 (res v)
      = saved (rfEval res bs cs (List.ofFn x₀) h) (res v) := fun v => saved_computeGradient bs J cs seed _ _
  rw [← h1, placeholder_evaluation_read bs hout cs hcs _ h hread, placeholder_gradient bs J cs seed _ hconv, placeholder_hessian]
  intro b hb d hd hne
  rw [hconv b hb d hd hne, hs]

/-! ## Examples -/

/-- `e = c * c`, `f = c * p` with the placeholder `p` (variable 1) linked to `e`: variables 0, 2, 3. -/
noncomputable def lateTape : FTape := [.bin .mul 0 0 2, .bin .mul 0 1 3]

theorem lateTape_late : Late (phRes 2) lateTape.blocks where
  order := by simp [lateTape, FTape.blocks, FBlock.toBlock, phRes]
  self := by
    intro b hb
    simp [lateTape, FTape.blocks] at hb
    rcases hb with rfl | rfl <;> simp [FBlock.toBlock, phRes]
  outs := by
    intro b hb
    simp [lateTape, FTape.blocks] at hb
    rcases hb with rfl | rfl <;> simp [FBlock.toBlock, phRes]

/-- **No derivative through a placeholder, late use.** The value returned at `x` is `x³`, whatever was evaluated before; the derivative reported is
`x²`, that with `p` held fixed. -/
theorem late_derivative_wrong (x : ℝ) (h : FHeap) (hfl : ∀ v, (h v).isControl = false) :
    saved (rfEval (phRes 2) lateTape.blocks [0] [x] h) 3 = x ^ 3 ∧
    ∃ g, (computeGradient (phRes 2) lateTape.blocks 3 [0] 1 (rfEval (phRes 2) lateTape.blocks [0] [x] phHeap)).1 = [g] ∧ g = x ^ 2 := by
  constructor
  · have h0 := hfl 0
    have h2 := hfl 2
    have h3 := hfl 3
    simp [rfEval, recompute, lateTape, FTape.blocks, FBlock.toBlock, Ph.Block.recompute, updateControls, setCkpt, markControls, h0, h2, h3, relevant,
      setCkpt?, saved, phRes, BOp.val]
    ring
  · refine ⟨_, rfl, ?_⟩
    show (1 : ℝ) * (x * x) = x ^ 2
    ring

/-- The hypotheses of `late_history` hold for this tape. -/
example (l : List (List ℝ)) (x : ℝ) (v : BV) :
    saved (runs (phRes 2) lateTape.blocks [0] (l ++ [[x]]) phHeap) v
      = saved (Pyadjoint.rfEval (subst (phRes 2) lateTape.blocks) [0] [x] phHeap) v :=
  late_history
    ⟨by simp [lateTape, FTape.blocks, FBlock.toBlock], by simp [lateTape, FTape.blocks, FBlock.toBlock],
      by simp [lateTape, FTape.blocks, FBlock.toBlock]⟩
    lateTape_late [0] (by simp)
    (by
      intro b hb inputs i hi ho
      simp [lateTape, FTape.blocks] at hb
      rcases hb with rfl | rfl <;> match inputs, hi with
      | [a, c], _ => rfl)
    phHeap (fun _ => rfl) l [x] rfl v

/-- `v₁ := v₀³; v₂ := v₁³; v₄ := p³` with the placeholder `p`, variable 3, linked to `v₂`. -/
def phCubes : Blocks ℝ ℝ ℝ := [cubeBlock 0 1, cubeBlock 1 2, cubeBlock 3 4]

/-- The placeholder is variable 3. -/
def phCubeRes : BV → BV := fun v => if v = 3 then 2 else v

theorem phCubes_wf : WF phCubes where
  nodup := by simp [phCubes, cubeBlock]
  self := by simp [phCubes, cubeBlock]
  later := by simp [phCubes, cubeBlock]

theorem phCubes_late : Late phCubeRes phCubes where
  order := by simp [phCubes, cubeBlock, phCubeRes]
  self := by simp [phCubes, cubeBlock, phCubeRes]
  outs := by simp [phCubes, cubeBlock, phCubeRes]

theorem phCubes_reach (v : BV) (h : Reach phCubes (· ∈ [0]) v) : v = 0 ∨ v = 1 ∨ v = 2 := by
  induction h with
  | base h => simp at h; exact Or.inl h
  | step hb hd _ ho ih =>
    simp only [phCubes, List.mem_cons, List.not_mem_nil, or_false] at hb
    rcases hb with rfl | rfl | rfl <;> simp [cubeBlock] at ho hd
    · simp [ho]
    · simp [ho]
    · subst hd; simp at ih

theorem phCubes_dep (b : Block ℝ ℝ ℝ) (hb : b ∈ phCubes) (hd : ∃ d ∈ b.deps, Reach phCubes (· ∈ [0]) d) :
    ∃ d o, b = cubeBlock d o ∧ Reach phCubes (· ∈ [0]) d := by
  simp only [phCubes, List.mem_cons, List.not_mem_nil, or_false] at hb
  obtain ⟨d, hd, hr⟩ := hd
  rcases hb with rfl | rfl | rfl <;> simp [cubeBlock] at hd <;> subst hd <;> exact ⟨_, _, rfl, hr⟩

theorem phCubes_independent : IndependentControls phCubes [0] := by
  intro c hc b hb ho
  simp only [List.mem_singleton] at hc
  subst hc
  simp only [phCubes, List.mem_cons, List.not_mem_nil, or_false] at hb
  rcases hb with rfl | rfl | rfl <;> simp [cubeBlock] at ho

/-- The hypotheses of `placeholder_hessian_read_partial`, `placeholder_tangent_read_partial` and `placeholder_gradient_read_partial` hold at every point:
late uses read the value after the evaluation. -/
example (x₀ dir : Fin 1 → ℝ) : ∃ hess : Fin 1 → ℝ,
    (computeHessian phCubeRes phCubes 2 [0] (List.ofFn dir)
      (computeGradient phCubeRes phCubes 2 [0] 1 (rfEval phCubeRes phCubes [0] (List.ofFn x₀) cubeHeap)).2).1 = List.ofFn hess ∧
    ∀ (i : Fin 1) (w : ℝ), HasDerivAt (fun s : ℝ => fderiv ℝ (fun x : Fin 1 → ℝ => cubeAdj 1 (saved (Pyadjoint.rfEval phCubes [0] (List.ofFn x)
        (hold phCubeRes (fun d => saved (rfEval phCubeRes phCubes [0] (List.ofFn x₀) cubeHeap) (phCubeRes d)) cubeHeap)) 2))
      (x₀ + s • dir) (Pi.single i w)) (cubeAdj (hess i) w) 0 := by
  refine placeholder_hessian_read_partial phCubes_wf phCubes_late.outs 2 [0] (by simp) (by simp [phCubeRes]) cubeHeap (fun _ => rfl) (fun _ => rfl)
    phCubes_independent 1 x₀ dir cubeAdj (late_readAs phCubes phCubes_late [0] _ cubeHeap) (fun _ _ _ _ _ => rfl)
    (Filter.Eventually.of_forall ?_) ?_ ?_ ?_
  · intro s b hb hd
    obtain ⟨d, o, rfl, _⟩ := phCubes_dep b hb hd
    exact cube_adjoint d o _ _
  · intro b hb hd
    obtain ⟨d, o, rfl, _⟩ := phCubes_dep b hb hd
    exact cube_tangent d o _ _
  · intro b hb hd
    obtain ⟨d, o, rfl, hr⟩ := phCubes_dep b hb hd
    exact cube_hessian d o _ _ hr
  · intro c hc
    simp only [List.mem_singleton] at hc
    subst hc
    exact Or.inl ⟨cubeBlock 0 1, by simp [phCubes], Or.inl (by simp [cubeBlock])⟩

end Ph
end Pyadjoint
