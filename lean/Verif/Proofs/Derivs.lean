import Verif.Model.CrashHess
import Verif.Props.Hessian

/-! Derivative and Hessian computations, whether they return or raise, change derivative values and path markings only. -/

namespace Pyadjoint

/-- A change of derivative values and markings. -/
def Derivs (P : BV → Prop) (x y : Var ℝ ℝ ℝ) (v : BV) : Prop :=
  y.output = x.output ∧ y.ckpt = x.ckpt ∧ (x.isControl = false → y.isControl = false) ∧ (y.marked = true → x.marked = true ∨ P v)

theorem Derivs.refl (P : BV → Prop) (x : Var ℝ ℝ ℝ) (v : BV) : Derivs P x x v := ⟨rfl, rfl, id, Or.inl⟩

theorem Derivs.trans {P : BV → Prop} {x y z : Var ℝ ℝ ℝ} {v : BV} (a : Derivs P x y v) (b : Derivs P y z v) : Derivs P x z v :=
  ⟨b.1.trans a.1, b.2.1.trans a.2.1, fun h => b.2.2.1 (a.2.2.1 h), fun h => (b.2.2.2 h).elim a.2.2.2 Or.inr⟩

theorem derivs_markAll_true (P : BV → Prop) (nodes : List BV) (hP : ∀ v ∈ nodes, P v) (h : FHeap) (v : BV) :
    Derivs P (h v) (markAll nodes true h v) v := by
  rw [markAll_apply]
  split
  · exact ⟨rfl, rfl, id, fun _ => Or.inr (hP v ‹_›)⟩
  · exact .refl _ _ _

theorem derivs_markAll_false (P : BV → Prop) (nodes : List BV) (h : FHeap) (v : BV) :
    Derivs P (h v) (markAll nodes false h v) v := by
  rw [markAll_apply]
  split
  · exact ⟨rfl, rfl, id, fun h => by cases h⟩
  · exact .refl _ _ _

theorem derivs_reset (P : BV → Prop) (t : FTape) (r : ResetType) (hr : r = .adjoint ∨ r = .tlm ∨ r = .hessian) (h : FHeap) (v : BV) :
    Derivs P (h v) (resetVariables t.blocks r h v) v := by
  rw [resetVariables_apply]
  split
  · rcases hr with rfl | rfl | rfl <;> exact ⟨rfl, rfl, id, Or.inl⟩
  · exact .refl _ _ _

theorem derivs_seedTlm (P : BV → Prop) (cs : List BV) (ds : List ℝ) (h : FHeap) (v : BV) : Derivs P (h v) (seedTlm cs ds h v) v := by
  obtain ⟨o, ho⟩ := seedTlm_frame cs ds h v
  rw [ho]; exact ⟨rfl, rfl, id, Or.inl⟩

theorem derivs_tlm (P : BV → Prop) (t : FTape) (hself : ∀ b ∈ t, b.out ∉ b.deps) (h : FHeap) (v : BV) :
    Derivs P (h v) (t.evaluateTlm true h v) v := by
  obtain ⟨o, ho⟩ := FTape.evaluateTlm_frame t true h v hself
  rw [ho]; exact ⟨rfl, rfl, id, Or.inl⟩

theorem derivs_hess (P : BV → Prop) (t : FTape) (h g : FHeap) (hg : t.evaluateHessian true h = .ok g) (v : BV) :
    Derivs P (h v) (g v) v := by
  obtain ⟨o, ho⟩ := FTape.evaluateHessian_frame t true h g hg v
  rw [ho]; exact ⟨rfl, rfl, id, Or.inl⟩

theorem derivs_tangentStart (P : BV → Prop) (t : FTape) (cs : List BV) (ds : List ℝ) (hP : ∀ v ∈ findRelevantNodes t.blocks cs, P v)
    (h : FHeap) (v : BV) : Derivs P (h v) (t.tangentStart cs ds h v) v := by
  unfold FTape.tangentStart
  exact ((derivs_reset P t .tlm (by simp) h v).trans (derivs_reset P t .hessian (by simp) _ v)).trans
    ((derivs_seedTlm P cs ds _ v).trans (derivs_markAll_true P _ hP _ v))

theorem derivs_update (P : BV → Prop) (h : FHeap) (J : BV) (x : Var ℝ ℝ ℝ) (hx : Derivs P (h J) x J) (v : BV) :
    Derivs P (h v) (Function.update h J x v) v := by
  by_cases hv : v = J
  · subst hv; rw [Function.update_self]; exact hx
  · rw [Function.update_of_ne hv]; exact .refl _ _ _

theorem derivs_hessianStart (P : BV → Prop) (t : FTape) (hself : ∀ b ∈ t, b.out ∉ b.deps) (J : BV) (cs : List BV) (ds : List ℝ)
    (hP : ∀ v ∈ findRelevantNodes t.blocks cs, P v) (h : FHeap) (v : BV) : Derivs P (h v) (t.hessianStart J cs ds h v) v := by
  unfold FTape.hessianStart
  refine (((derivs_tangentStart P t cs ds hP h v).trans (derivs_tlm P t hself _ v)).trans (derivs_markAll_false P (findRelevantNodes t.blocks cs) _ v)).trans
    (Derivs.trans ?_ (derivs_markAll_true P _ hP _ v))
  refine derivs_update P _ J _ ?_ v
  exact ⟨rfl, rfl, id, Or.inl⟩

/-- A Hessian computation that raised changed derivative values and markings only. -/
theorem derivs_crashedHessian (P : BV → Prop) (t : FTape) (hself : ∀ b ∈ t, b.out ∉ b.deps) (J : BV) (cs : List BV) (ds : List ℝ)
    (hP : ∀ v ∈ findRelevantNodes t.blocks cs, P v) (h h' : FHeap) (hc : t.CrashedHessian J cs ds h h') (v : BV) :
    Derivs P (h v) (h' v) v := by
  cases hc with
  | tangent k b x g hb hg =>
    subst hg
    refine ((derivs_tangentStart P t cs ds hP h v).trans (derivs_tlm P (t.take k) (fun b hb => hself b (List.mem_of_mem_take hb)) _ v)).trans ?_
    refine derivs_update P _ _ _ ?_ v
    exact ⟨rfl, rfl, id, Or.inl⟩
  | hessian k b xs g hb hg =>
    refine ((derivs_hessianStart P t hself J cs ds hP h v).trans (derivs_hess P _ _ g hg v)).trans ?_
    dsimp only
    split
    · exact ⟨rfl, rfl, id, Or.inl⟩
    · exact .refl _ _ _

theorem computeHessian_start (t : FTape) (J : BV) (cs : List BV) (ds : List ℝ) (h : FHeap) :
    t.computeHessian J cs ds h = (t.evaluateHessian true (t.hessianStart J cs ds h)).map fun h =>
      let h := markAll (findRelevantNodes t.blocks cs) false h
      (cs.map (getHessian h), h) := computeHessian_eq t J cs ds h

/-- The same for the function `failedHessian`. -/
theorem derivs_failedHessian (t : FTape) (hself : ∀ b ∈ t, b.out ∉ b.deps) (J : BV) (cs : List BV) (ds : List ℝ)
    (k : Nat) (junk : BV → Option ℝ) (h : FHeap) (v : BV) : Derivs (fun _ => True) (h v) (t.failedHessian J cs ds k junk h v) v := by
  have start := derivs_hessianStart (fun _ => True) t hself J cs ds (fun _ _ => trivial) h v
  cases hb : t.reverse[k]? with
  | none => simp only [FTape.failedHessian, hb]; exact start
  | some b =>
    cases hg : FTape.evaluateHessian (t.reverse.take k).reverse true (t.hessianStart J cs ds h) with
    | error e => simp only [FTape.failedHessian, hb, hg]; exact start
    | ok g =>
      simp only [FTape.failedHessian, hb, hg]
      exact derivs_crashedHessian (fun _ => True) t hself J cs ds (fun _ _ => trivial) h _ (.hessian k b junk g hb hg) v

/-- A Hessian computation that returned changed derivative values and removed markings. -/
theorem derivs_computeHessian (P : BV → Prop) (t : FTape) (hself : ∀ b ∈ t, b.out ∉ b.deps) (J : BV) (cs : List BV) (ds : List ℝ)
    (h : FHeap) (r : List ℝ × FHeap) (hr : t.computeHessian J cs ds h = .ok r) (v : BV) : Derivs P (h v) (r.2 v) v := by
  rw [computeHessian_start] at hr
  cases hg : t.evaluateHessian true (t.hessianStart J cs ds h) with
  | error e => rw [hg] at hr; cases hr
  | ok g =>
    rw [hg] at hr
    cases hr
    have d := ((derivs_hessianStart (· ∈ findRelevantNodes t.blocks cs) t hself J cs ds (fun _ h => h) h v).trans (derivs_hess _ _ _ g hg v))
    show Derivs P (h v) (markAll (findRelevantNodes t.blocks cs) false g v) v
    refine ⟨?_, ?_, ?_, ?_⟩ <;> rw [markAll_apply]
    · split <;> exact d.1
    · split <;> exact d.2.1
    · split <;> exact d.2.2.1
    · split
      · intro h; cases h
      · intro h; exact Or.inl ((d.2.2.2 h).resolve_right ‹_›)

theorem derivs_evaluateAdj (P : BV → Prop) (b : Block ℝ ℝ ℝ) (h : FHeap) (v : BV) : Derivs P (h v) (b.evaluateAdj true h v) v := by
  rw [Block.evaluateAdj_apply]; exact ⟨rfl, rfl, id, Or.inl⟩

theorem derivs_foldl {β : Type*} (P : BV → Prop) (f : FHeap → β → FHeap) (hf : ∀ h b v, Derivs P (h v) (f h b v) v) (l : List β) (h : FHeap) (v : BV) :
    Derivs P (h v) (l.foldl f h v) v := by
  induction l generalizing h with
  | nil => exact .refl _ _ _
  | cons b l ih => exact (hf h b v).trans (ih _)

theorem derivs_addAdj? (P : BV → Prop) (h : FHeap) (d : BV) (a : Option ℝ) (v : BV) : Derivs P (h v) (addAdj? h d a v) v := by
  cases a with
  | none => exact .refl _ _ _
  | some a =>
    refine derivs_update P h d _ ?_ v
    exact ⟨rfl, rfl, id, Or.inl⟩

theorem derivs_markControls (P : BV → Prop) (t : FTape) (J : BV) (cs : List BV) (seed : ℝ) (hP : ∀ v ∈ findRelevantNodes t.blocks cs, P v) (h g : FHeap)
    (hg : ∀ v, Derivs P (markControls cs true (markAll (findRelevantNodes t.blocks cs) true
      (Function.update (resetVariables t.blocks .adjoint h) J { resetVariables t.blocks .adjoint h J with adj := some seed })) v) (g v) v) (v : BV) :
    Derivs P (h v) (markControls cs false g v) v := by
  have d := ((derivs_reset P t .adjoint (by simp) h v).trans (derivs_update P _ J
    { resetVariables t.blocks .adjoint h J with adj := some seed } ⟨rfl, rfl, id, Or.inl⟩ v)).trans (derivs_markAll_true P _ hP _ v)
  have e := hg v
  rw [markControls_apply] at e ⊢
  by_cases hv : v ∈ cs
  · rw [if_pos hv] at e ⊢
    exact ⟨e.1.trans d.1, e.2.1.trans d.2.1, fun _ => rfl, fun h => (e.2.2.2 h).elim d.2.2.2 Or.inr⟩
  · rw [if_neg hv] at e ⊢
    exact d.trans e

/-- A gradient computation that raised changed derivative values and markings only. -/
theorem derivs_crashedGradient (P : BV → Prop) (t : FTape) (J : BV) (cs : List BV) (seed : ℝ) (k j : Nat)
    (hP : ∀ v ∈ findRelevantNodes t.blocks cs, P v) (h : FHeap) (v : BV) :
    Derivs P (h v) (crashedGradientState t.blocks J cs seed k j h v) v := by
  unfold crashedGradientState
  refine derivs_markControls P t J cs seed hP h _ (fun w => ?_) v
  refine (derivs_foldl P _ (fun h b v => derivs_evaluateAdj P b h v) (t.blocks.reverse.take k) _ w).trans ?_
  cases t.blocks.reverse[k]? with
  | none => exact .refl _ _ _
  | some b =>
    dsimp only
    unfold Block.evaluateAdjPartial
    dsimp only
    split
    · exact .refl _ _ _
    · exact derivs_foldl P _ (fun h p v => derivs_addAdj? P h _ _ v) _ _ w

/-- A gradient computation that returned changed derivative values and removed markings. -/
theorem derivs_computeGradient (P : BV → Prop) (t : FTape) (J : BV) (cs : List BV) (seed : ℝ) (h : FHeap) (v : BV) :
    Derivs P (h v) (computeGradientState t.blocks J cs seed h v) v := by
  have d := derivs_markControls (· ∈ findRelevantNodes t.blocks cs) t J cs seed (fun _ h => h) h
    (evaluateAdj t.blocks true (markControls cs true (markAll (findRelevantNodes t.blocks cs) true
      (Function.update (resetVariables t.blocks .adjoint h) J { resetVariables t.blocks .adjoint h J with adj := some seed }))))
    (fun w => by obtain ⟨a, ha⟩ := evaluateAdj_frame t.blocks true _ w; rw [ha]; exact ⟨rfl, rfl, id, Or.inl⟩) v
  show Derivs P (h v) (markAll (findRelevantNodes t.blocks cs) false (markControls cs false _) v) v
  refine ⟨?_, ?_, ?_, ?_⟩ <;> rw [markAll_apply]
  · split <;> exact d.1
  · split <;> exact d.2.1
  · split <;> exact d.2.2.1
  · split
    · intro h; cases h
    · intro h; exact Or.inl ((d.2.2.2 h).resolve_right ‹_›)

end Pyadjoint
