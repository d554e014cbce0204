import Verif.Props.Composition
import Verif.Proofs.HessCongr
import Verif.Props.Hessian

/-!
# C88: recording further operations

A functional keeps its value, its derivative and its Hessian action when the program goes on and further operations are
recorded on the same tape.
-/

namespace Pyadjoint

section
variable {V T A : Type*}

/-- Variables of an earlier part of the tape are not results of a later part. -/
theorem not_out_of_later {bs tail : Blocks V T A} (wf : WF (bs ++ tail)) {v : BV} (hv : OnTape bs v) :
    ∀ b ∈ tail, v ∉ b.outs := by
  obtain ⟨b', hb', h'⟩ := hv
  intro b hb ho
  have := (List.pairwise_append.1 wf.later).2.2 b' hb' b hb
  rcases h' with h' | h'
  · exact this.1 v h' ho
  · exact this.2 v h' ho

/-- **C88.** Evaluating: what was recorded later does not change the value. -/
theorem value_before_later_operations {bs tail : Blocks V T A} (cs : List BV) (xs : List V) (h : Heap V T A) (v : BV)
    (hv : ∀ b ∈ tail, v ∉ b.outs) :
    saved (rfEval (bs ++ tail) cs xs h) v = saved (rfEval bs cs xs h) v := by
  unfold rfEval
  simp only [saved_markControls]
  generalize markControls cs true (updateControls cs xs h) = g
  rw [show recompute (bs ++ tail) g = recompute tail (recompute bs g) by unfold recompute; rw [List.foldl_append]]
  generalize recompute bs g = g
  induction tail generalizing g with
  | nil => rfl
  | cons b tail ih =>
    show saved (recompute tail (b.recompute false g)) v = _
    rw [ih (fun b' hb' => hv b' (by simp [hb']))]
    refine saved_congr (by rw [Block.recompute_apply]) ?_
    rw [Block.recompute_apply]
    simp only [Block.ckptAfter, entries_nil_of_not_mem (hv b (by simp))]
    split <;> simp

/-- The nodes of the longer tape are those of the shorter one and results of the later part. -/
theorem findRelevantNodes_append_split (bs tail : Blocks V T A) (cs : List BV) :
    ∃ extra, findRelevantNodes (bs ++ tail) cs = findRelevantNodes bs cs ++ extra ∧ ∀ v ∈ extra, ∃ b ∈ tail, v ∈ b.outs := by
  unfold findRelevantNodes
  rw [List.foldl_append]
  generalize bs.foldl _ cs = ns
  induction tail generalizing ns with
  | nil => exact ⟨[], by simp⟩
  | cons b tail ih =>
    rw [List.foldl_cons]
    split
    · obtain ⟨ex, e, hex⟩ := ih (ns ++ b.outs)
      refine ⟨b.outs ++ ex, by rw [e, List.append_assoc], fun v hv => ?_⟩
      rcases List.mem_append.1 hv with h | h
      · exact ⟨b, by simp, h⟩
      · obtain ⟨b', h1, h2⟩ := hex v h
        exact ⟨b', by simp [h1], h2⟩
    · obtain ⟨ex, e, hex⟩ := ih ns
      refine ⟨ex, e, fun v hv => ?_⟩
      obtain ⟨b', h1, h2⟩ := hex v hv
      exact ⟨b', by simp [h1], h2⟩

end

section
open Classical
variable (P : BV → Prop)

theorem canon_congr {h g : FHeap} (e : ∀ v, P v → canonVar (h v) (saved h v) = canonVar (g v) (saved g v)) : canon P h = canon P g := by
  funext v
  unfold canon
  by_cases hv : P v
  · rw [if_pos hv, if_pos hv, e v hv]
  · rw [if_neg hv, if_neg hv]

theorem canon_of_eq {h g : FHeap} (e : ∀ v, P v → h v = g v) : canon P h = canon P g :=
  canon_congr P fun v hv => by rw [e v hv, saved_congr (by rw [e v hv]) (by rw [e v hv])]

theorem canon_markAll_split (ns extra : List BV) (hex : ∀ v ∈ extra, ¬ P v) (m : Bool) (h : FHeap) :
    canon P (markAll (ns ++ extra) m h) = canon P (markAll ns m h) := by
  apply canon_of_eq
  intro v hv
  rw [markAll_apply, markAll_apply]
  have : v ∈ ns ++ extra ↔ v ∈ ns := by
    rw [List.mem_append]
    exact ⟨fun h' => h'.resolve_right fun h'' => hex v h'' hv, Or.inl⟩
  by_cases hm : v ∈ ns
  · rw [if_pos hm, if_pos (this.2 hm)]
  · rw [if_neg hm, if_neg fun h' => hm (this.1 h')]

theorem evaluateTlm_later (u : FTape) (hself : ∀ b ∈ u, b.out ∉ b.deps) (m : Bool) (h : FHeap) (v : BV) (hv : ∀ b ∈ u, v ≠ b.out) :
    u.evaluateTlm m h v = h v := by
  unfold FTape.evaluateTlm
  induction u generalizing h with
  | nil => rfl
  | cons b u ih =>
    rw [List.foldl_cons, ih (fun b' hb' => hself b' (by simp [hb'])) _ (fun b' hb' => hv b' (by simp [hb'])),
      FBlock.evaluateTlm_apply b m h (hself b (by simp)), if_neg (hv b (by simp))]

theorem FBlock.evaluateHessian_idle (b : FBlock) (m : Bool) (h : FHeap) (hn : (h b.out).hess = none) :
    b.evaluateHessian m h = .ok h := by
  cases b with
  | un op a o =>
    have hn' : (h o).hess = none := hn
    cases op <;> simp [FBlock.evaluateHessian, FBlock.evaluateHessianDefault, hn']
  | bin op a c o =>
    have hn' : (h o).hess = none := hn
    cases op <;> simp [FBlock.evaluateHessian, FBlock.evaluateHessianDefault, hn']

theorem evaluateHessian_later (t u : FTape) (m : Bool) (h : FHeap) (hn : ∀ b ∈ u, (h b.out).hess = none) :
    FTape.evaluateHessian (t ++ u) m h = t.evaluateHessian m h := by
  unfold FTape.evaluateHessian
  rw [List.reverse_append, List.foldlM_append]
  have : ∀ l : List FBlock, (∀ b ∈ l, (h b.out).hess = none) → l.foldlM (fun h b => b.evaluateHessian m h) h = Except.ok h := by
    intro l
    induction l with
    | nil => intro _; rfl
    | cons b l ih =>
      intro hl
      rw [List.foldlM_cons, FBlock.evaluateHessian_idle b m h (hl b (by simp))]
      exact ih fun b' hb' => hl b' (by simp [hb'])
  rw [this u.reverse fun b hb => hn b (List.mem_reverse.1 hb)]
  rfl

/-- **C88.** Second derivatives: what was recorded later does not change the Hessian action. -/
theorem hessian_before_later_operations (t u : FTape) (wf : WF (FTape.blocks (t ++ u))) (J : BV) (hJ : OnTape t.blocks J)
    (cs : List BV) (hcs : ∀ c ∈ cs, OnTape t.blocks c) (ds : List ℝ) (h : FHeap) :
    (FTape.computeHessian (t ++ u) J cs ds h).map (·.1) = (t.computeHessian J cs ds h).map (·.1) := by
  have hbl : FTape.blocks (t ++ u) = t.blocks ++ u.blocks := by simp [FTape.blocks]
  rw [hbl] at wf
  have hout : ∀ v, OnTape t.blocks v → ∀ b ∈ u, v ≠ b.out := by
    intro v hv b hb e
    refine not_out_of_later wf hv b.toBlock (List.mem_map.2 ⟨b, hb, rfl⟩) ?_
    rw [e]; cases b <;> simp [FBlock.toBlock, FBlock.out]
  have hself' : ∀ b ∈ t ++ u, b.out ∉ b.deps := FTape.WF_self (by rw [hbl]; exact wf)
  have hself : ∀ b ∈ u, b.out ∉ b.deps := fun b hb => hself' b (List.mem_append_right _ hb)
  obtain ⟨extra, hex, hexo⟩ := findRelevantNodes_append_split t.blocks u.blocks cs
  have hexP : ∀ v ∈ extra, ¬ OnTape t.blocks v := by
    intro v hv hon
    obtain ⟨b, hb, ho⟩ := hexo v hv
    exact not_out_of_later wf hon b hb ho
  have hnsP : ∀ v ∈ findRelevantNodes t.blocks cs, OnTape t.blocks v := by
    intro v hv
    by_cases h' : ∀ b ∈ t.blocks, v ∉ b.outs
    · exact hcs v (mem_findRelevantNodes_of_not_out t.blocks cs v h' hv)
    · push Not at h'
      obtain ⟨b, hb, hvb⟩ := h'
      exact ⟨b, hb, Or.inr hvb⟩
  unfold FTape.computeHessian
  simp only []
  rw [hbl, hex]
  set P := OnTape t.blocks with hP
  set ns := findRelevantNodes t.blocks cs
  -- the heaps before the Hessian sweep
  have e0 : canon P (seedTlm cs ds (resetVariables (t.blocks ++ u.blocks) .hessian (resetVariables (t.blocks ++ u.blocks) .tlm h)))
      = canon P (seedTlm cs ds (resetVariables t.blocks .hessian (resetVariables t.blocks .tlm h))) := by
    rw [← seedTlm_canon P cs ds hcs, ← seedTlm_canon P cs ds hcs]
    congr 1
    apply canon_of_eq
    intro v hv
    have hv' : OnTape (t.blocks ++ u.blocks) v := by
      obtain ⟨b, hb, h'⟩ := hv
      exact ⟨b, List.mem_append_left _ hb, h'⟩
    rw [resetVariables_apply, resetVariables_apply, resetVariables_apply, resetVariables_apply, if_pos hv', if_pos hv', if_pos hv, if_pos hv]
  have hn0 : ∀ b ∈ u, (seedTlm cs ds (resetVariables (t.blocks ++ u.blocks) .hessian (resetVariables (t.blocks ++ u.blocks) .tlm h)) b.out).hess = none := by
    intro b hb
    obtain ⟨o, e⟩ := seedTlm_frame cs ds (resetVariables (t.blocks ++ u.blocks) .hessian (resetVariables (t.blocks ++ u.blocks) .tlm h)) b.out
    rw [e]
    show (resetVariables (t.blocks ++ u.blocks) .hessian (resetVariables (t.blocks ++ u.blocks) .tlm h) b.out).hess = none
    rw [resetVariables_apply, if_pos ⟨b.toBlock, List.mem_append_right _ (List.mem_map.2 ⟨b, hb, rfl⟩), Or.inr (by
      cases b <;> simp [FBlock.toBlock, FBlock.out])⟩]
    rfl
  generalize seedTlm cs ds (resetVariables (t.blocks ++ u.blocks) .hessian (resetVariables (t.blocks ++ u.blocks) .tlm h)) = g' at e0 hn0
  generalize seedTlm cs ds (resetVariables t.blocks .hessian (resetVariables t.blocks .tlm h)) = g at e0
  have e1 : canon P (markAll (ns ++ extra) false (FTape.evaluateTlm (t ++ u) true (markAll (ns ++ extra) true g')))
      = canon P (markAll ns false (t.evaluateTlm true (markAll ns true g))) := by
    have a1 : canon P (FTape.evaluateTlm (t ++ u) true (markAll (ns ++ extra) true g'))
        = canon P (t.evaluateTlm true (markAll (ns ++ extra) true g')) := by
      apply canon_of_eq
      intro v hv
      rw [show FTape.evaluateTlm (t ++ u) true (markAll (ns ++ extra) true g')
        = u.evaluateTlm true (t.evaluateTlm true (markAll (ns ++ extra) true g')) by unfold FTape.evaluateTlm; rw [List.foldl_append]]
      exact evaluateTlm_later u hself true _ v (hout v hv)
    rw [canon_markAll_split P ns extra hexP, ← markAll_canon P ns hnsP, a1, ← FTape.evaluateTlm_canon P t (fun _ h => h),
      canon_markAll_split P ns extra hexP, ← markAll_canon P ns hnsP, e0, markAll_canon P ns hnsP, FTape.evaluateTlm_canon P t (fun _ h => h),
      markAll_canon P ns hnsP]
  have hn1 : ∀ b ∈ u, (markAll (ns ++ extra) false (FTape.evaluateTlm (t ++ u) true (markAll (ns ++ extra) true g')) b.out).hess = none := by
    intro b hb
    obtain ⟨o, e⟩ := FTape.evaluateTlm_frame (t ++ u) true (markAll (ns ++ extra) true g') b.out hself'
    rw [markAll_hess, e]
    show (markAll (ns ++ extra) true g' b.out).hess = none
    rw [markAll_hess, hn0 b hb]
  generalize markAll (ns ++ extra) false (FTape.evaluateTlm (t ++ u) true (markAll (ns ++ extra) true g')) = k' at e1 hn1
  generalize markAll ns false (t.evaluateTlm true (markAll ns true g)) = k at e1
  have e2 : canon P (markAll (ns ++ extra) true (Function.update k' J { k' J with hess := some 0 }))
      = canon P (markAll ns true (Function.update k J { k J with hess := some 0 })) := by
    rw [canon_markAll_split P ns extra hexP, ← markAll_canon P ns hnsP, ← markAll_canon P ns hnsP,
      ← canon_update P k' hJ { k' J with hess := some 0 } _ rfl rfl rfl, ← canon_update P k hJ { k J with hess := some 0 } _ rfl rfl rfl, e1]
    have : canon P k' J = canon P k J := by rw [e1]
    rw [canon_pos P hJ, canon_pos P hJ] at this
    unfold canonVar at this ⊢
    simp only [Var.mk.injEq] at this
    simp [this]
  rw [evaluateHessian_later t u true _ (fun b hb => by
    rw [markAll_apply]
    have := hn1 b hb
    have hne : b.out ≠ J := fun e => hout J hJ b hb e.symm
    split <;> simp [Function.update_of_ne hne, this])]
  generalize markAll (ns ++ extra) true (Function.update k' J { k' J with hess := some 0 }) = q' at e2
  generalize markAll ns true (Function.update k J { k J with hess := some 0 }) = q at e2
  have e3 := FTape.evaluateHessian_canon P t (fun _ h => h) true q'
  rw [e2, FTape.evaluateHessian_canon P t (fun _ h => h) true q] at e3
  cases r' : t.evaluateHessian true q' with
  | error e =>
    cases r : t.evaluateHessian true q with
    | error e' =>
      rw [r, r'] at e3
    | ok x => rw [r, r'] at e3; cases e3
  | ok x' =>
    cases r : t.evaluateHessian true q with
    | error e' => rw [r, r'] at e3; cases e3
    | ok x =>
      rw [r, r'] at e3
      have e3 : canon P x = canon P x' := Except.ok.inj e3
      show Except.ok _ = Except.ok _
      congr 1
      apply List.map_congr_left
      intro c hc
      unfold getHessian
      have hx : (x c).hess = (x' c).hess := by
        rw [← canon_hess P (hcs c hc) x, ← canon_hess P (hcs c hc) x', e3]
      have m1 : ∀ (l : List BV) (y : FHeap), (markAll l false y c).hess = (y c).hess := fun l y => by
        rw [markAll_hess]
      rw [m1, m1, hx]

theorem adjAfter_congr_on (b : Block ℝ ℝ ℝ) {h g : FHeap} (m : Bool) (v : BV) (hv : (h v).adj = (g v).adj ∧ (h v).marked = (g v).marked)
    (hd : ∀ d ∈ b.deps, saved h d = saved g d) (ho : ∀ o ∈ b.outs, (h o).adj = (g o).adj) : b.adjAfter m h v = b.adjAfter m g v := by
  unfold Block.adjAfter
  rw [List.map_congr_left hd, List.map_congr_left ho, hv.1, hv.2]

/-- The state a gradient computation leaves on the variables of the earlier part. -/
theorem gradient_state_before_later_operations {bs tail : Blocks ℝ ℝ ℝ} (wf : WF (bs ++ tail)) (J : BV) (hJ : OnTape bs J)
    (cs : List BV) (a : ℝ) (h : FHeap) (v : BV) (hv : OnTape bs v) :
    (computeGradientState (bs ++ tail) J cs a h v).adj = (computeGradientState bs J cs a h v).adj ∧
      (computeGradientState (bs ++ tail) J cs a h v).marked = (computeGradientState bs J cs a h v).marked := by
  obtain ⟨extra, hex, hexo⟩ := findRelevantNodes_append_split bs tail cs
  have hexP : ∀ v ∈ extra, ¬ OnTape bs v := by
    intro v hv hon
    obtain ⟨b, hb, ho⟩ := hexo v hv
    exact not_out_of_later wf hon b hb ho
  have hmem : ∀ w, OnTape bs w → (w ∈ findRelevantNodes (bs ++ tail) cs ↔ w ∈ findRelevantNodes bs cs) := by
    intro w hw
    rw [hex, List.mem_append]
    exact ⟨fun h' => h'.resolve_right fun h'' => hexP w h'' hw, Or.inl⟩
  have hreset : ∀ w, OnTape bs w → resetVariables (bs ++ tail) .adjoint h w = resetVariables bs .adjoint h w := by
    intro w hw
    obtain ⟨b, hb, h'⟩ := id hw
    rw [resetVariables_apply, resetVariables_apply, if_pos hw, if_pos ⟨b, List.mem_append_left _ hb, h'⟩]
  -- sweeps that agree on the variables of `bs`
  have key : ∀ (l : Blocks ℝ ℝ ℝ), (∀ b ∈ l, b ∈ bs) → ∀ g g' : FHeap,
      (∀ w, OnTape bs w → (g w).adj = (g' w).adj ∧ (g w).marked = (g' w).marked) → (∀ w, saved g w = saved g' w) →
      ∀ w, OnTape bs w → (evaluateAdj l true g w).adj = (evaluateAdj l true g' w).adj := by
    intro l hl g g' hg hs
    induction l with
    | nil => exact fun w hw => (hg w hw).1
    | cons b l ih =>
      have ih := ih fun b' hb' => hl b' (by simp [hb'])
      intro w hw
      rw [evaluateAdj_cons, evaluateAdj_cons, Block.evaluateAdj_apply, Block.evaluateAdj_apply]
      refine adjAfter_congr_on b true w ⟨ih w hw, ?_⟩ (fun d _ => by rw [saved_evaluateAdj, saved_evaluateAdj, hs]) fun o ho => ih o ⟨b, hl b (by simp), Or.inr ho⟩
      rw [evaluateAdj_marked, evaluateAdj_marked, (hg w hw).2]
  unfold computeGradientState markedAdjoint
  simp only [markAll_adj, markControls_adj]
  constructor
  · rw [show ∀ g : FHeap, evaluateAdj (bs ++ tail) true g = evaluateAdj bs true (evaluateAdj tail true g) from fun g => by
      unfold evaluateAdj; rw [List.reverse_append, List.foldl_append]]
    apply key bs (fun _ h => h) _ _ _ _ v hv
    · intro w hw
      constructor
      · rw [evaluateAdj_idle]
        · simp only [markAll_adj, markControls_adj]
          by_cases hwJ : w = J
          · subst hwJ; simp
          · rw [Function.update_of_ne hwJ, Function.update_of_ne hwJ, hreset w hw]
        · intro b hb o ho
          simp only [markAll_adj, markControls_adj]
          have hoJ : o ≠ J := fun e => not_out_of_later wf hJ b hb (e ▸ ho)
          rw [Function.update_of_ne hoJ, resetVariables_apply, if_pos ⟨b, List.mem_append_right _ hb, Or.inr ho⟩]
          rfl
      · rw [evaluateAdj_marked, markControls_marked, markControls_marked, markAll_apply, markAll_apply]
        by_cases hm : w ∈ findRelevantNodes bs cs
        · rw [if_pos hm, if_pos ((hmem w hw).2 hm)]
        · rw [if_neg hm, if_neg fun h' => hm ((hmem w hw).1 h')]
          by_cases hwJ : w = J
          · subst hwJ; simp [hreset w hw]
          · rw [Function.update_of_ne hwJ, Function.update_of_ne hwJ, hreset w hw]
    · intro w
      simp only [saved_evaluateAdj, saved_markControls, saved_markAll, saved_update_adj, saved_resetVariables]
  · rw [markAll_apply, markAll_apply]
    by_cases hm : v ∈ findRelevantNodes bs cs
    · rw [if_pos hm, if_pos ((hmem v hv).2 hm)]
    · rw [if_neg hm, if_neg fun h' => hm ((hmem v hv).1 h')]
      rw [markControls_marked, markControls_marked, evaluateAdj_marked, evaluateAdj_marked, markControls_marked, markControls_marked,
        markAll_apply, markAll_apply, if_neg hm, if_neg fun h' => hm ((hmem v hv).1 h')]
      by_cases hwJ : v = J
      · subst hwJ; simp [hreset v hv]
      · rw [Function.update_of_ne hwJ, Function.update_of_ne hwJ, hreset v hv]

/-- **C88.** `derivative` followed by `hessian`, as users call them: what was recorded later changes neither. -/
theorem derivatives_before_later_operations (t u : FTape) (wf : WF (FTape.blocks (t ++ u))) (J : BV) (hJ : OnTape t.blocks J)
    (cs : List BV) (hcs : ∀ c ∈ cs, OnTape t.blocks c) (a : ℝ) (ds : List ℝ) (h : FHeap) :
    (computeGradient (FTape.blocks (t ++ u)) J cs a h).1 = (computeGradient t.blocks J cs a h).1 ∧
    (FTape.computeHessian (t ++ u) J cs ds (computeGradient (FTape.blocks (t ++ u)) J cs a h).2).map (·.1)
      = (t.computeHessian J cs ds (computeGradient t.blocks J cs a h).2).map (·.1) := by
  have hbl : FTape.blocks (t ++ u) = t.blocks ++ u.blocks := by simp [FTape.blocks]
  have wf' := wf
  rw [hbl] at wf'
  constructor
  · rw [hbl]
    exact gradient_before_later_operations wf' J (not_out_of_later wf' hJ) cs a h fun c hc => Or.inl (hcs c hc)
  · rw [hessian_before_later_operations t u wf J hJ cs hcs, hbl]
    have ht : ∀ v, touched t cs J v → OnTape t.blocks v := by
      rintro v (h' | h' | rfl)
      · exact h'
      · exact hcs v h'
      · exact hJ
    apply hessian_of_saved
    · intro v _
      have sv : ∀ bs, saved (computeGradientState bs J cs a h) v = saved h v := fun bs =>
        saved_congr (computeGradientState_frame bs J cs a h v).1 (computeGradientState_frame bs J cs a h v).2.1
      exact (sv _).trans (sv _).symm
    · exact fun v hv => (gradient_state_before_later_operations wf' J hJ cs a h v (ht v hv)).1
    · exact fun v hv => (gradient_state_before_later_operations wf' J hJ cs a h v (ht v hv)).2
    · exact fun v hv => Or.inl (ht v hv)

/-- Non-vacuity: `u = x * y`, `J = exp u`; later `k = J + x` and `l = k * J` are recorded. -/
def earlierPart : FTape := [.bin .mul 0 1 2, .un .exp 2 3]

/-- The operations recorded later. -/
def laterPart : FTape := [.bin .add 3 0 4, .bin .mul 4 3 5]

example : WF (FTape.blocks (earlierPart ++ laterPart)) ∧ OnTape earlierPart.blocks 3 ∧ (∀ c ∈ [0, 1], OnTape earlierPart.blocks c) ∧
    (∀ b ∈ laterPart.blocks, 3 ∉ b.outs) := by
  refine ⟨⟨?_, ?_, ?_⟩, ⟨_, List.mem_cons_of_mem _ List.mem_cons_self, Or.inr (by simp [FBlock.toBlock])⟩, ?_, ?_⟩
  · simp [earlierPart, laterPart, FTape.blocks, FBlock.toBlock]
  · simp [earlierPart, laterPart, FTape.blocks, FBlock.toBlock]
  · simp [earlierPart, laterPart, FTape.blocks, FBlock.toBlock]
  · intro c hc
    refine ⟨_, List.mem_cons_self, Or.inl ?_⟩
    simpa [FBlock.toBlock] using hc
  · simp [laterPart, FTape.blocks, FBlock.toBlock]

end

end Pyadjoint
