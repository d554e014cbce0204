import Verif.Model.FailedOps
import Verif.Props.Optimizer

/-!
# Operations that raise while they are being recorded leave no trace (C63)
-/

namespace Pyadjoint

/-- Specification: the operations that completed. -/
def ETape.ops (t : ETape) : FTape := t.filterMap fun e => match e with
  | .op b => some b
  | .failed _ _ => none

theorem ETape.ops_op (b : FBlock) (t : ETape) : ETape.ops (.op b :: t) = b :: t.ops := rfl
theorem ETape.ops_failed (u : UOp) (a : BV) (t : ETape) : ETape.ops (.failed u a :: t) = t.ops := rfl

section
variable (u : UOp) (a : BV) (m : Bool) (h : FHeap)

theorem failed_recompute : (TapeEntry.failed u a).toBlock.recompute m h = h := rfl
theorem failed_adj : (TapeEntry.failed u a).toBlock.evaluateAdj m h = h := rfl
theorem failed_tlm : (TapeEntry.failed u a).toBlock.evaluateTlm m h = h := by
  simp [Block.evaluateTlm, TapeEntry.toBlock, relevant]
theorem failed_hess : (TapeEntry.failed u a).toBlock.evaluateHessian m h = h := rfl

end

theorem ETape.recompute_ops (t : ETape) (h : FHeap) : recompute t.blocks h = recompute t.ops.blocks h := by
  induction t generalizing h with
  | nil => rfl
  | cons e t ih =>
    cases e with
    | op b => exact ih _
    | failed u a => exact ih h

theorem ETape.evaluateAdj_ops (t : ETape) (m : Bool) (h : FHeap) : evaluateAdj t.blocks m h = evaluateAdj t.ops.blocks m h := by
  induction t generalizing h with
  | nil => rfl
  | cons e t ih =>
    have hc : ∀ (b : Block ℝ ℝ ℝ) (bs : Blocks ℝ ℝ ℝ), evaluateAdj (b :: bs) m h = b.evaluateAdj m (evaluateAdj bs m h) := by
      intro b bs
      simp [evaluateAdj]
    cases e with
    | op b =>
      show evaluateAdj (b.toBlock :: ETape.blocks t) m h = evaluateAdj (b.toBlock :: (ETape.ops t).blocks) m h
      rw [hc, hc, ih]
    | failed u a =>
      show evaluateAdj ((TapeEntry.failed u a).toBlock :: ETape.blocks t) m h = evaluateAdj (ETape.ops t).blocks m h
      rw [hc, failed_adj, ih]

/-- **C63 (tangents).** The tangent sweep is that of the completed operations. -/
theorem failed_evaluateTlm (t : ETape) (m : Bool) (h : FHeap) : t.evaluateTlm m h = t.ops.evaluateTlm m h := by
  induction t generalizing h with
  | nil => rfl
  | cons e t ih =>
    cases e with
    | op b => exact ih _
    | failed u a =>
      show ETape.evaluateTlm t m ((TapeEntry.failed u a).toBlock.evaluateTlm m h) = _
      rw [failed_tlm]
      exact ih h

theorem ETape.evaluateHessian_ops (t : ETape) (m : Bool) (h : FHeap) : t.evaluateHessian m h = t.ops.evaluateHessian m h := by
  induction t generalizing h with
  | nil => rfl
  | cons e t ih =>
    have hc : ETape.evaluateHessian (e :: t) m h = ETape.evaluateHessian t m h >>= fun h => e.evaluateHessian m h := by
      unfold ETape.evaluateHessian
      rw [List.reverse_cons, List.foldlM_append]
      simp
    rw [hc, ih]
    cases e with
    | op b => rw [ETape.ops_op, FTape.evaluateHessian_cons]; rfl
    | failed u a =>
      rw [ETape.ops_failed]
      have : (fun h => TapeEntry.evaluateHessian (.failed u a) m h) = fun h => Except.ok h := rfl
      rw [this]
      cases FTape.evaluateHessian (ETape.ops t) m h <;> rfl

theorem ETape.findRelevantNodes_ops (t : ETape) (cs : List BV) : findRelevantNodes t.blocks cs = findRelevantNodes t.ops.blocks cs := by
  induction t generalizing cs with
  | nil => rfl
  | cons e t ih =>
    cases e with
    | op b => exact ih _
    | failed u a =>
      show findRelevantNodes (ETape.blocks t) (if [a].any (· ∈ cs) then cs ++ [] else cs) = _
      rw [List.append_nil, ite_self]
      exact ih cs

theorem ETape.onTape (t : ETape) (v : BV) (hv : OnTape t.ops.blocks v) : OnTape t.blocks v := by
  obtain ⟨b, hb, hv⟩ := hv
  obtain ⟨f, hf, rfl⟩ := List.mem_map.1 hb
  obtain ⟨e, he, hef⟩ := List.mem_filterMap.1 hf
  cases e with
  | failed u a => cases hef
  | op b =>
    cases hef
    exact ⟨_, List.mem_map.2 ⟨_, he, rfl⟩, hv⟩

theorem ETape.reset_ops (t : ETape) (ty : ResetType) (h : FHeap)  :
    resetVariables t.ops.blocks ty (resetVariables t.blocks ty h) = resetVariables t.blocks ty h := by
  classical
  funext v
  rw [resetVariables_apply]
  split
  · next hv =>
    rw [resetVariables_apply, if_pos (t.onTape v hv)]
    cases ty <;> rfl
  · rfl


theorem ETape.computeGradientState_ops (t : ETape) (J : BV) (cs : List BV) (seed : ℝ) (h : FHeap) :
    computeGradientState t.blocks J cs seed h = computeGradientState t.ops.blocks J cs seed (resetVariables t.blocks .adjoint h) := by
  unfold computeGradientState markedAdjoint
  simp only []
  rw [t.reset_ops, t.findRelevantNodes_ops, t.evaluateAdj_ops]

theorem ETape.computeHessian_ops (t : ETape) (J : BV) (cs : List BV) (ds : List ℝ) (h : FHeap) :
    t.computeHessian J cs ds h
      = t.ops.computeHessian J cs ds (resetVariables t.blocks .hessian (resetVariables t.blocks .tlm h)) := by
  classical
  have e : resetVariables t.ops.blocks .hessian (resetVariables t.ops.blocks .tlm
      (resetVariables t.blocks .hessian (resetVariables t.blocks .tlm h)))
      = resetVariables t.blocks .hessian (resetVariables t.blocks .tlm h) := by
    rw [show resetVariables t.ops.blocks .tlm (resetVariables t.blocks .hessian (resetVariables t.blocks .tlm h))
      = resetVariables t.blocks .hessian (resetVariables t.blocks .tlm h) from ?_, t.reset_ops]
    funext v
    rw [resetVariables_apply]
    split
    · next hv =>
      rw [resetVariables_apply, resetVariables_apply, if_pos (t.onTape v hv), if_pos (t.onTape v hv)]
      rfl
    · rfl
  unfold ETape.computeHessian FTape.computeHessian
  simp only []
  rw [e, t.findRelevantNodes_ops, failed_evaluateTlm, t.evaluateHessian_ops]
  rfl

/-- The values after `rf(x)` depend only on the values before. -/
theorem evaluation_of_saved {V T A : Type*} {bs : Blocks V T A} (wf : WF bs) (cs : List BV) (hnd : cs.Nodup)
    (xs : List V) (hlen : xs.length = cs.length)
    (hone : ∀ b ∈ bs, (∃ o ∈ b.outs, o ∈ cs) → ∀ o ∈ b.outs, o ∈ cs)
    (htot : ∀ b ∈ bs, ∀ inputs i, inputs.length = b.deps.length → i < b.outs.length → (b.recomputeC inputs i).isSome)
    (h₁ h₂ : Heap V T A) (hf₁ : ∀ v, (h₁ v).isControl = false) (hf₂ : ∀ v, (h₂ v).isControl = false)
    (hsv : ∀ v, saved h₁ v = saved h₂ v) (v : BV) :
    saved (rfEval bs cs xs h₁) v = saved (rfEval bs cs xs h₂) v := by
  revert v
  have hctl : ∀ v ∈ cs, saved (rfEval bs cs xs h₁) v = saved (rfEval bs cs xs h₂) v := by
    intro v hv
    obtain ⟨i, hi, rfl⟩ := List.mem_iff_getElem.1 hv
    unfold saved
    rw [rfEval_control bs cs xs h₁ hnd hlen (fun c _ => hf₁ c) i hi,
      rfEval_control bs cs xs h₂ hnd hlen (fun c _ => hf₂ c) i hi]
  apply tape_induction wf (P := fun v => saved (rfEval bs cs xs h₁) v = saved (rfEval bs cs xs h₂) v)
  · intro v hv
    by_cases hc : v ∈ cs
    · exact hctl v hc
    · have hs := hsv v
      rw [saved, saved] at hs ⊢
      obtain ⟨o₁, e₁⟩ := rfEval_frame bs cs xs h₁ v (fun c _ => hf₁ c)
      obtain ⟨o₂, e₂⟩ := rfEval_frame bs cs xs h₂ v (fun c _ => hf₂ c)
      rw [rfEval_leaf bs cs xs h₁ v hc hv, rfEval_leaf bs cs xs h₂ v hc hv]
      exact hs
  · intro b hb ih o hob
    by_cases hc : o ∈ cs
    · exact hctl o hc
    · obtain ⟨i, hi, rfl⟩ := List.mem_iff_getElem.1 hob
      have hno : ∀ o ∈ b.outs, o ∉ cs := fun o h1 h2 => hc (hone b hb ⟨o, h1, h2⟩ _ hob)
      have e1 := rfEval_block wf cs xs h₁ hf₁ b hb hno i hi
      have e2 := rfEval_block wf cs xs h₂ hf₂ b hb hno i hi
      rw [List.map_congr_left ih] at e1
      have ht := htot b hb (b.deps.map (saved (rfEval bs cs xs h₂))) i (by simp) hi
      revert e1 e2
      cases hr : b.recomputeC (b.deps.map (saved (rfEval bs cs xs h₂))) i with
      | none => rw [hr] at ht; cases ht
      | some y =>
        intro e1 e2
        simp only [orKeep] at e1 e2
        simp only [saved, e1, e2]

/-- **C63.** Operations that raised while they were recorded have no effect: on the tape with the blocks they left, from any state with the
same values, `rf(x)` computes the same values, and the derivative and the Hessian action after it are the same (or the latter raises
the same), as on the tape of the completed operations. -/
theorem failed_operations_harmless (t : ETape) (wf : WF t.ops.blocks) (cs : List BV) (hnd : cs.Nodup) (J : BV)
    (hJ : OnTape t.ops.blocks J) (hcs : ∀ c ∈ cs, OnTape t.ops.blocks c) (h h' : FHeap)
    (hf : ∀ v, (h v).isControl = false) (hf' : ∀ v, (h' v).isControl = false)
    (hm : ∀ v, (h v).marked = false) (hm' : ∀ v, (h' v).marked = false)
    (hsv : ∀ v, saved h' v = saved h v) (xs : List ℝ) (hlen : xs.length = cs.length) (scale seed : ℝ) (ds : List ℝ) :
    let e' := rfEval t.blocks cs xs h'
    let e := rfEval t.ops.blocks cs xs h
    (∀ v, saved e' v = saved e v) ∧
    (rfDerivative t.blocks J cs scale seed e').1 = (rfDerivative t.ops.blocks J cs scale seed e).1 ∧
    (t.computeHessian J cs ds (rfDerivative t.blocks J cs scale seed e').2).map (·.1)
      = (t.ops.computeHessian J cs ds (rfDerivative t.ops.blocks J cs scale seed e).2).map (·.1) := by
  intro e' e
  have he : e' = rfEval t.ops.blocks cs xs h' := by
    show rfEval t.blocks cs xs h' = _
    unfold rfEval
    simp only []
    rw [t.recompute_ops]
  have hs : ∀ v, saved e' v = saved e v := by
    rw [he]
    refine evaluation_of_saved wf cs hnd xs hlen ?_ (FTape.total t.ops) h' h hf' hf hsv
    rintro b hb ⟨o, ho, hoc⟩ o' ho'
    obtain ⟨f, -, rfl⟩ := List.mem_map.1 hb
    rw [FBlock.mem_outs] at ho ho'
    rw [ho', ← ho]; exact hoc
  have fr' : ∀ v, ∃ c, e' v = { h' v with ckpt := c } := fun v => by
    rw [he]; exact rfEval_frame t.ops.blocks cs xs h' v fun c _ => hf' c
  have fr : ∀ v, ∃ c, e v = { h v with ckpt := c } := fun v => rfEval_frame t.ops.blocks cs xs h v fun c _ => hf c
  set r' := resetVariables t.blocks .adjoint e' with hr'
  have fr2 : ∀ v, ∃ a c, r' v = { h' v with ckpt := c, adj := a } := by
    intro v
    obtain ⟨c, hc⟩ := fr' v
    rw [hr', resetVariables_apply, hc]
    split
    · exact ⟨_, _, rfl⟩
    · exact ⟨_, _, rfl⟩
  have hsr : ∀ v, saved r' v = saved e v := fun v => by rw [hr', saved_resetVariables]; exact hs v
  have hfe : ∀ v, (e v).isControl = false := fun v => by obtain ⟨c, hc⟩ := fr v; rw [hc]; exact hf v
  have hme : ∀ v, (e v).marked = false := fun v => by obtain ⟨c, hc⟩ := fr v; rw [hc]; exact hm v
  have hfr : ∀ v, (r' v).isControl = false := fun v => by obtain ⟨a, c, hc⟩ := fr2 v; rw [hc]; exact hf' v
  have hmr : ∀ v, (r' v).marked = false := fun v => by obtain ⟨a, c, hc⟩ := fr2 v; rw [hc]; exact hm' v
  have e1 : (rfDerivative t.blocks J cs scale seed e').2 = computeGradientState t.ops.blocks J cs (seed * scale) r' :=
    t.computeGradientState_ops J cs (seed * scale) e'
  refine ⟨hs, ?_, ?_⟩
  · have := gradient_of_saved wf J cs (seed * scale) r' e hsr fun c hc => Or.inl (hcs c hc)
    show cs.map (getDerivative (rfDerivative t.blocks J cs scale seed e').2) = _
    rw [e1]
    exact this
  · rw [e1, t.computeHessian_ops]
    have hon : ∀ v, touched t.ops cs J v → OnTape t.ops.blocks v := by
      rintro v (hv | hv | rfl)
      · exact hv
      · exact hcs v hv
      · exact hJ
    have g1 := fun v => computeGradientState_adj_frame t.ops.blocks J cs (seed * scale) r' hfr hmr v
    have g0 := fun v => computeGradientState_adj_frame t.ops.blocks J cs (seed * scale) e hfe hme v
    refine hessian_of_saved t.ops J cs ds _ _ (fun v _ => ?_) (fun v hv => ?_) (fun v _ => ?_) fun v hv => Or.inl (hon v hv)
    · rw [saved_resetVariables, saved_resetVariables]
      obtain ⟨a, ha⟩ := g1 v
      obtain ⟨b, hb⟩ := g0 v
      have := hsr v
      show saved _ v = saved (computeGradientState t.ops.blocks J cs (seed * scale) e) v
      unfold saved at this ⊢
      rw [ha, hb]; exact this
    · have := adj_of_saved t.ops J cs (seed * scale) hon r' e (fun v _ => hsr v) hmr hme v hv
      refine Eq.trans ?_ this
      rw [resetVariables_apply, resetVariables_apply]
      by_cases hv2 : OnTape t.blocks v
      · rw [if_pos hv2, if_pos hv2]; rfl
      · rw [if_neg hv2, if_neg hv2]
    · obtain ⟨a, ha⟩ := g1 v
      obtain ⟨b, hb⟩ := g0 v
      show _ = (computeGradientState t.ops.blocks J cs (seed * scale) e v).marked
      rw [hb, resetVariables_apply, resetVariables_apply, ha]
      split <;> exact (hmr v).trans (hme v).symm

/-- Recording an operation that raises changes no value and no completed operation; its argument is on the tape
afterwards. -/
theorem recordFailed_spec (t : ETape) (u : UOp) (a : BV) (h : FHeap) :
    (t.recordFailed u a h).1.ops = t.ops ∧ (∀ v, saved (t.recordFailed u a h).2 v = saved h v) ∧
      (∀ v, ∃ c, (t.recordFailed u a h).2 v = { h v with ckpt := c }) ∧
      OnTape (t.recordFailed u a h).1.blocks a := by
  refine ⟨?_, fun v => ?_, fun v => ?_, ?_⟩
  · simp [ETape.recordFailed, ETape.ops]
  · by_cases hv : v = a
    · subst hv
      simp only [ETape.recordFailed, saved, Function.update_self]
      cases (h v).ckpt <;> rfl
    · simp only [ETape.recordFailed, saved, Function.update_of_ne hv]
  · by_cases hv : v = a
    · subst hv
      exact ⟨_, Function.update_self ..⟩
    · exact ⟨(h v).ckpt, Function.update_of_ne hv ..⟩
  · refine ⟨(TapeEntry.failed u a).toBlock, ?_, Or.inl List.mem_cons_self⟩
    simp [ETape.recordFailed, ETape.blocks]

/-- `y = x·x; log(y - ...)` raises; `J = y·y`. -/
example : let t : ETape := [.op (.bin .mul 0 0 1), .failed .log 1, .op (.bin .mul 1 1 2)]
    WF t.ops.blocks ∧ OnTape t.ops.blocks 2 ∧ OnTape t.ops.blocks 0 ∧ t.length = 3 := by
  refine ⟨⟨?_, ?_, ?_⟩, ⟨_, List.mem_cons_of_mem _ List.mem_cons_self, Or.inr (List.mem_singleton.2 rfl)⟩,
    ⟨_, List.mem_cons_self, Or.inl List.mem_cons_self⟩, rfl⟩
  all_goals simp [ETape.ops, FTape.blocks, FBlock.toBlock]

/-- **The block that is left is on the tape all the same:** a control that was used only in an operation that raised counts as being on the tape,
and its adjoint value is reset.  (Without the block the derivative of a functional that does not depend on it would be the value
left from earlier, C43.) -/
theorem failed_operation_resets (u : UOp) (s : ℝ) :
    let t : ETape := [.failed u 0, .op (.bin .mul 1 1 2)]
    let h := Function.update unitHeap 0 { unitHeap 0 with adj := some s }
    (rfDerivative t.blocks 2 [0] 1 1 h).1 = [0] ∧ (rfDerivative t.ops.blocks 2 [0] 1 1 h).1 = [s] := by
  refine ⟨rfl, rfl⟩

end Pyadjoint
