import Verif.Proofs.ZeroTangent
import Verif.Props.ControlSets
import Verif.Props.Hessian

/-!
# C92: fewer directions than controls

`rf.hessian` with too few directions is not refused (`too_few_directions`).  On programs of `AdjFloat` operations the missing directions count as zero.
-/

namespace Pyadjoint

/-- **C92, what too few directions do.** On every tape of `AdjFloat` operations, in every state: if the Hessian action in the directions `ds`, filled up with zeros, returns, then
the Hessian action in the directions `ds` alone returns the same values, and leaves the same values, adjoints, Hessian values, checkpoints and marks.  The controls without direction
are operands or results on the tape and do not occur among those with one. -/
theorem missing_directions_are_zero (t : FTape) (J : BV) (cs : List BV) (ds : List ℝ) (hl : ds.length ≤ cs.length) (h : FHeap)
    (hon : ∀ c ∈ cs.drop ds.length, OnTape t.blocks c) (hnew : ∀ c ∈ cs.drop ds.length, c ∉ cs.take ds.length) {vs : List ℝ} {g : FHeap}
    (hok : t.computeHessian J cs (ds ++ List.replicate (cs.length - ds.length) 0) h = .ok (vs, g)) :
    ∃ h', t.computeHessian J cs ds h = .ok (vs, h') ∧ ∀ v, g v = { h' v with tlm := (g v).tlm } := by
  unfold FTape.computeHessian at hok ⊢
  dsimp only at hok ⊢
  have hz := seedTlm_zeros (cs.drop ds.length) (seedTlm cs ds (resetVariables t.blocks .hessian (resetVariables t.blocks .tlm h))) (by
    intro c hc
    classical
    rw [seedTlm_take, seedTlm_of_not_mem _ _ _ _ (hnew c hc), resetVariables_apply, resetVariables_apply, if_pos (hon c hc), if_pos (hon c hc)]
    rfl)
  rw [List.length_drop, ← seedTlm_pad cs ds _ _ hl] at hz
  have hs := (((((hz.markAll (findRelevantNodes t.blocks cs) true).tlmSweep true t).markAll (findRelevantNodes t.blocks cs) false).setHess J (some 0)).markAll
    (findRelevantNodes t.blocks cs) true).hessSweep true t
  revert hok
  generalize hq : t.evaluateHessian true (markAll (findRelevantNodes t.blocks cs) true (Function.update (markAll (findRelevantNodes t.blocks cs) false
    (t.evaluateTlm true (markAll (findRelevantNodes t.blocks cs) true (seedTlm cs (ds ++ List.replicate (cs.length - ds.length) 0)
      (resetVariables t.blocks .hessian (resetVariables t.blocks .tlm h)))))) J _)) = q at hs ⊢
  cases q with
  | error e => intro hok; cases hok
  | ok g₁ =>
    intro hok
    obtain ⟨h₁, e, z⟩ := hs g₁ rfl
    rw [e]
    cases hok
    have zm := z.markAll (findRelevantNodes t.blocks cs) false
    refine ⟨_, ?_, fun v => (zm v).1⟩
    dsimp only
    congr 2
    refine List.map_congr_left fun c _ => ?_
    unfold getHessian
    rw [zm.hess]

/-- The hypotheses can be met: `J(x, c) = (x c)²` with both controls and the direction `7` for the first. -/
example (x : ℝ) : ∃ vs g, crashTape.computeHessian 3 [0, 1] ([7] ++ List.replicate ([0, 1].length - [(7 : ℝ)].length) 0)
      (computeGradientState crashTape.blocks 3 [0, 1] 1 (rfEval crashTape.blocks [0, 1] [x, 5] unitHeap)) = .ok (vs, g) ∧
    (∀ c ∈ [0, 1].drop [(7 : ℝ)].length, OnTape crashTape.blocks c) ∧ ∀ c ∈ [0, 1].drop [(7 : ℝ)].length, c ∉ [0, 1].take [(7 : ℝ)].length :=
  ⟨_, _, rfl, fun c hc => ⟨(FBlock.bin .mul 0 1 2).toBlock, List.mem_cons_self, Or.inl (List.mem_cons_of_mem _ hc)⟩, by decide⟩

/-- **C92, part.** After a derivative, `rf.hessian` with too few directions returns, and what it returns is what the directions filled up with zeros give.  Distinct controls on the
tape; the result of every `/` and `**` depends on a control (else `rf.hessian` can raise, `hessian_raises`). -/
theorem few_directions_after_derivative_partial (t : FTape) (wf : WF t.blocks) (J : BV) (cs : List BV) (hnd : cs.Nodup) (h : FHeap) (scale adjInput : ℝ) (ds : List ℝ)
    (hl : ds.length ≤ cs.length) (hon : ∀ c ∈ cs, OnTape t.blocks c) (hneed : ∀ b ∈ t, b.NeedsAdj → Reach t.blocks (· ∈ cs) b.out) :
    ∃ vs h₁ h₂, t.computeHessian J cs ds (rfDerivative t.blocks J cs scale adjInput h).2 = .ok (vs, h₁) ∧
      t.computeHessian J cs (ds ++ List.replicate (cs.length - ds.length) 0) (rfDerivative t.blocks J cs scale adjInput h).2 = .ok (vs, h₂) := by
  obtain ⟨⟨vs, h₂⟩, e⟩ := hessian_returns_partial t wf J cs h scale adjInput (ds ++ List.replicate (cs.length - ds.length) 0) (fun c hc => Or.inl (hon c hc)) hneed
  obtain ⟨h₁, e₁, -⟩ := missing_directions_are_zero t J cs ds hl _ (fun c hc => hon c (List.mem_of_mem_drop hc))
    (fun c hc hc' => List.disjoint_take_drop hnd le_rfl hc' hc) e
  exact ⟨vs, h₁, h₂, e₁, e⟩

/-- The hypotheses can be met: two controls, a quotient, one direction. -/
example : ∃ vs h₁ h₂, exHess.computeHessian 4 [0, 1] [7] (rfDerivative exHess.blocks 4 [0, 1] 1 1 unitHeap).2 = .ok (vs, h₁) ∧
    exHess.computeHessian 4 [0, 1] [7, 0] (rfDerivative exHess.blocks 4 [0, 1] 1 1 unitHeap).2 = .ok (vs, h₂) := by
  have hwf : WF exHess.blocks := by
    refine ⟨?_, ?_, ?_⟩
    · intro b hb
      simp only [FTape.blocks, exHess, List.map_cons, List.map_nil, List.mem_cons, List.not_mem_nil, or_false] at hb
      rcases hb with rfl | rfl | rfl <;> simp [FBlock.toBlock]
    · intro b hb
      simp only [FTape.blocks, exHess, List.map_cons, List.map_nil, List.mem_cons, List.not_mem_nil, or_false] at hb
      rcases hb with rfl | rfl | rfl <;> simp [FBlock.toBlock]
    · simp [FTape.blocks, exHess, FBlock.toBlock]
  refine few_directions_after_derivative_partial exHess hwf 4 [0, 1] (by decide) unitHeap 1 1 [7] (by decide) ?_ ?_
  · intro c hc
    simp only [List.mem_cons, List.not_mem_nil, or_false] at hc
    rcases hc with rfl | rfl
    · exact ⟨_, by simp [FTape.blocks, exHess]; exact Or.inl rfl, by simp [FBlock.toBlock]⟩
    · exact ⟨_, by simp [FTape.blocks, exHess]; exact Or.inr (Or.inl rfl), by simp [FBlock.toBlock]⟩
  · intro b hb hn
    simp only [exHess, List.mem_cons, List.not_mem_nil, or_false] at hb
    rcases hb with rfl | rfl | rfl
    · exact absurd hn id
    · exact Reach.step (b := FBlock.toBlock (.bin .div 2 1 3)) (d := 1) (by simp [FTape.blocks, exHess])
        (by simp [FBlock.toBlock]) (Reach.base (by simp)) (by simp [FBlock.toBlock, FBlock.out])
    · exact absurd hn id

/-- Without the last condition this is false: for `J = x * x` with `x` given twice as a control, the one direction `7` gives `14`, the directions `7` and `0` give `0`. -/
theorem repeated_control_direction :
    let t : FTape := [.bin .mul 0 0 1]
    let h := computeGradientState t.blocks 1 [0, 0] 1 (rfEval t.blocks [0, 0] [3, 3] unitHeap)
    (t.computeHessian 1 [0, 0] [7] h).map (·.1) = .ok [14, 14] ∧ (t.computeHessian 1 [0, 0] [7, 0] h).map (·.1) = .ok [0, 0] := by
  intro t h
  have e1 : ∃ u, (t.computeHessian 1 [0, 0] [7] h).map (·.1) = .ok [u, u] ∧ u = 14 := by
    refine ⟨_, rfl, ?_⟩
    show ((1 : ℝ) * 7 + 0 * 3) + (1 * 7 + 0 * 3) = 14
    norm_num
  have e2 : ∃ u, (t.computeHessian 1 [0, 0] [7, 0] h).map (·.1) = .ok [u, u] ∧ u = 0 := by
    refine ⟨_, rfl, ?_⟩
    show ((1 : ℝ) * 0 + 0 * 3) + (1 * 0 + 0 * 3) = 0
    norm_num
  obtain ⟨_, e1, rfl⟩ := e1
  obtain ⟨_, e2, rfl⟩ := e2
  exact ⟨e1, e2⟩

end Pyadjoint
