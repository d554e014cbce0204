import Verif.Proofs.HessCongr
import Verif.Props.ReducedApi
import Verif.Props.Scale

/-!
# Values, gradients and Hessians do not depend on what was computed before (C55)
-/

namespace Pyadjoint

/-! ## Specification: what may have happened before -/

/-- Calls that use a recorded tape of `AdjFloat` operations. -/
inductive TapeCall
  /-- `rf(xs)`. -/
  | eval (xs : List ℝ)
  /-- `rf(xs)` that raised in block `k`, component `j`. -/
  | crash (xs : List ℝ) (k j : Nat)
  /-- `compute_gradient` of any functional on the tape with respect to any controls. -/
  | derivative (J : BV) (cs : List BV) (seed : ℝ)
  /-- `compute_hessian` of any functional on the tape with respect to any controls. -/
  | hessian (J : BV) (cs : List BV) (ds : List ℝ)

/-- One call; `cs` are the controls of `rf`. -/
noncomputable def TapeCall.step (t : FTape) (cs : List BV) (h : FHeap) : TapeCall → Except FBlock.PyErr FHeap
  | .eval xs => .ok (rfEval t.blocks cs xs h)
  | .crash xs k j => .ok (crashedEval t.blocks cs xs k j h)
  | .derivative J' cs' seed => .ok (computeGradientState t.blocks J' cs' seed h)
  | .hessian J' cs' ds => (t.computeHessian J' cs' ds h).map (·.2)

/-- Any number of calls. -/
noncomputable def runCalls (t : FTape) (cs : List BV) (l : List TapeCall) (h : FHeap) : Except FBlock.PyErr FHeap :=
  l.foldlM (fun h c => c.step t cs h) h

/-! ## Proof -/

theorem rfEval_kept {V T A : Type*} {bs : Blocks V T A} (wf : WF bs) (cs : List BV) (xs : List V) (h : Heap V T A) (v : BV) (hk : Kept bs cs v) :
    (rfEval bs cs xs h v).ckpt = (h v).ckpt := by
  rcases hk.2 with hl | ⟨b, hb, hvb, o, ho, hoc⟩
  · rw [rfEval_leaf bs cs xs _ v hk.1 hl]
  · obtain ⟨i, hi, rfl⟩ := List.mem_iff_getElem.1 hvb
    exact rfEval_block_control wf cs xs _ b hb ⟨o, ho, hoc⟩ i hi hk.1

theorem crashedEval_kept {V T A : Type*} {bs : Blocks V T A} (wf : WF bs) (cs : List BV) (xs : List V) (k j : Nat) (h : Heap V T A)
    (v : BV) (hk : Kept bs cs v) : (crashedEval bs cs xs k j h v).ckpt = (h v).ckpt := by
  obtain ⟨hvc, hv⟩ := hk
  unfold crashedEval
  simp only [markControls_ckpt]
  set h₁ := markControls cs true (updateControls cs xs h) with hh₁
  have hc₁ : ∀ c ∈ cs, (h₁ c).isControl = true := by
    intro c hc; rw [hh₁, markControls_apply, if_pos hc]
  have e₁ : (h₁ v).ckpt = (h v).ckpt := by
    rw [hh₁, markControls_ckpt, updateControls_of_not_mem cs xs h v hvc]
  have wft : WF (bs.take k) := (WF.append (by rw [List.take_append_drop]; exact wf)).1
  have e₂ : (recompute (bs.take k) h₁ v).ckpt = (h₁ v).ckpt := by
    by_cases hin : ∃ b ∈ bs.take k, v ∈ b.outs
    · obtain ⟨b, hb, hvb⟩ := hin
      have hb' := List.mem_of_mem_take hb
      have hany : ∃ o ∈ b.outs, o ∈ cs := by
        rcases hv with hv | ⟨b', hb'', hvb', ho⟩
        · exact absurd hvb (hv b hb')
        · exact unique_block wf hb' hb'' hvb hvb' ▸ ho
      obtain ⟨o, hoo, hoc⟩ := hany
      exact recompute_kept wft cs h₁ hc₁ _ ⟨b, hb, hvb, o, hoo, hoc⟩
    · push Not at hin
      rw [recompute_of_not_out (bs.take k) h₁ v hin]
  cases hbk : bs[k]? with
  | none => exact e₂.trans e₁
  | some b =>
    simp only []
    have hb : b ∈ bs := List.mem_of_getElem? hbk
    by_cases hvb : v ∈ b.outs
    · have hany : ∃ o ∈ b.outs, o ∈ cs := by
        rcases hv with hv | ⟨b', hb', hvb', ho⟩
        · exact absurd hvb (hv b hb)
        · exact unique_block wf hb hb' hvb hvb' ▸ ho
      obtain ⟨o, hoo, hoc⟩ := hany
      have : b.recomputePartial false j (recompute (bs.take k) h₁) = recompute (bs.take k) h₁ := by
        unfold Block.recomputePartial
        rw [if_pos (List.any_eq_true.2 ⟨o, hoo, by rw [recompute_isControl]; exact hc₁ o hoc⟩)]
      rw [this, e₂, e₁]
    · rw [recomputePartial_of_not_out b _ _ _ v hvb, e₂, e₁]

/-- The blocks of a float tape always produce a value. -/
theorem FTape.total (t : FTape) : ∀ b ∈ t.blocks, ∀ inputs i, inputs.length = b.deps.length →
    i < b.outs.length → (b.recomputeC inputs i).isSome := by
  intro b hb inputs i hl _
  obtain ⟨fb, -, rfl⟩ := List.mem_map.1 hb
  cases fb with
  | un op a o =>
    match inputs, hl with
    | [x], _ => rfl
  | bin op a b o =>
    match inputs, hl with
    | [x, y], _ => rfl

/-- What no call changes. -/
structure SameBase (t : FTape) (cs : List BV) (h₀ h : FHeap) : Prop where
  output : ∀ v, (h v).output = (h₀ v).output
  flags : ∀ v, (h v).isControl = false
  marks : ∀ v, (h v).marked = false
  kept : ∀ v, Kept t.blocks cs v → (h v).ckpt = (h₀ v).ckpt

theorem computeGradientState_adj_frame {V T A : Type*} [Add A] (bs : Blocks V T A) (J : BV) (cs : List BV) (seed : A)
    (h : Heap V T A) (hfl : ∀ v, (h v).isControl = false) (hmk : ∀ v, (h v).marked = false) (v : BV) :
    ∃ a, computeGradientState bs J cs seed h v = { h v with adj := a } := by
  unfold computeGradientState markedAdjoint
  simp only []
  set h₁ := Function.update (resetVariables bs .adjoint h) J
    { resetVariables bs .adjoint h J with adj := some seed } with hh₁
  have f₁ : ∃ a, h₁ v = { h v with adj := a } := by
    have : ∃ a, resetVariables bs .adjoint h v = { h v with adj := a } := by
      rw [resetVariables_apply]
      split
      · exact ⟨none, rfl⟩
      · exact ⟨_, rfl⟩
    rw [hh₁]
    by_cases hv : v = J
    · subst hv
      obtain ⟨a, ha⟩ := this
      exact ⟨some seed, by rw [Function.update_self, ha]⟩
    · rw [Function.update_of_ne hv]; exact this
  obtain ⟨a₁, f₁⟩ := f₁
  obtain ⟨a₂, f₂⟩ := evaluateAdj_frame bs true
    (markControls cs true (markAll (findRelevantNodes bs cs) true h₁)) v
  refine ⟨a₂, ?_⟩
  rw [markAll_apply, markControls_apply, f₂, markControls_apply, markAll_apply, f₁]
  have e1 := hfl v
  have e2 := hmk v
  cases hx : h v with
  | mk o a t hs c ic mk cr lu =>
    rw [hx] at e1 e2
    simp only at e1 e2
    subst e1 e2
    by_cases m1 : v ∈ cs <;> by_cases m2 : v ∈ findRelevantNodes bs cs <;> simp [m1, m2]

theorem SameBase.step {t : FTape} (wf : WF t.blocks) {cs : List BV} {h₀ h h' : FHeap} (s : SameBase t cs h₀ h) (c : TapeCall)
    (hc : c.step t cs h = .ok h') : SameBase t cs h₀ h' := by
  cases c with
  | eval xs =>
    cases hc
    have fr := fun v => rfEval_frame t.blocks cs xs h v (fun c _ => s.flags c)
    refine ⟨fun v => ?_, fun v => ?_, fun v => ?_, fun v hv => (rfEval_kept wf cs xs h v hv).trans (s.kept v hv)⟩ <;>
      (obtain ⟨o, ho⟩ := fr v; rw [ho])
    · exact s.output v
    · exact s.flags v
    · exact s.marks v
  | crash xs k j =>
    cases hc
    have fr := fun v => crashed_evaluation_undisturbed t.blocks cs xs k j h s.flags v
    refine ⟨fun v => ?_, fun v => ?_, fun v => ?_, fun v hv => (crashedEval_kept wf cs xs k j h v hv).trans (s.kept v hv)⟩ <;>
      (obtain ⟨o, ho⟩ := fr v; rw [ho])
    · exact s.output v
    · exact s.flags v
    · exact s.marks v
  | derivative J' cs' seed =>
    cases hc
    have fr := fun v => computeGradientState_adj_frame t.blocks J' cs' seed h s.flags s.marks v
    refine ⟨fun v => ?_, fun v => ?_, fun v => ?_, fun v hv => ?_⟩ <;> (obtain ⟨o, ho⟩ := fr v; rw [ho])
    · exact s.output v
    · exact s.flags v
    · exact s.marks v
    · exact s.kept v hv
  | hessian J' cs' ds =>
    cases hr : t.computeHessian J' cs' ds h with
    | error e => rw [TapeCall.step, hr] at hc; cases hc
    | ok r =>
      rw [TapeCall.step, hr] at hc
      cases hc
      have fr := fun v => computeHessian_frame t (FTape.WF_self wf) J' cs' ds h s.marks r.1 r.2 hr v
      refine ⟨fun v => ?_, fun v => ?_, fun v => ?_, fun v hv => ?_⟩ <;> (obtain ⟨a, b, ho⟩ := fr v; simp only [ho])
      · exact s.output v
      · exact s.flags v
      · exact s.marks v
      · exact s.kept v hv

theorem SameBase.run {t : FTape} (wf : WF t.blocks) {cs : List BV} {h₀ : FHeap} (l : List TapeCall) {h h' : FHeap} (s : SameBase t cs h₀ h)
    (hr : runCalls t cs l h = .ok h') : SameBase t cs h₀ h' := by
  induction l generalizing h with
  | nil => cases hr; exact s
  | cons c l ih =>
    unfold runCalls at hr
    rw [List.foldlM_cons] at hr
    cases hc : c.step t cs h with
    | error e => rw [hc] at hr; cases hr
    | ok h₁ => rw [hc] at hr; exact ih (s.step wf c hc) hr

/-! ### The adjoint sweep -/

theorem addAdj?_canon (P : BV → Prop) (h : FHeap) {v : BV} (hv : P v) (a : Option ℝ) : addAdj? (canon P h) v a = canon P (addAdj? h v a) := by
  cases a with
  | none => rfl
  | some a =>
    show addAdj (canon P h) v a = canon P (addAdj h v a)
    unfold addAdj
    refine canon_update P h hv _ _ rfl rfl ?_
    rw [canon_pos P hv]; rfl

theorem evaluateAdj_canon (P : BV → Prop) (b : Block ℝ ℝ ℝ) (hd : ∀ d ∈ b.deps, P d) (ho : ∀ o ∈ b.outs, P o) (m : Bool) (h : FHeap) :
    b.evaluateAdj m (canon P h) = canon P (b.evaluateAdj m h) := by
  unfold Block.evaluateAdj
  have e : (b.outs.map fun o => (canon P h o).adj) = b.outs.map fun o => (h o).adj := List.map_congr_left fun v hv => canon_adj P (ho v hv) h
  simp only [e, relevant_canon P hd, map_saved_canon P hd]
  split
  · rfl
  rename_i n1
  clear n1
  · split
    · rfl
    rename_i n2
    clear n2
    · have hl : ∀ p ∈ relevant h m b.deps, P p.1 := fun p hp => hd _ (mem_relevant hp)
      clear e
      revert hl
      generalize relevant h m b.deps = l
      generalize b.deps.map (saved h) = inputs
      generalize (b.outs.map fun o => (h o).adj) = x
      intro hl
      induction l generalizing h with
      | nil => rfl
      | cons p l ih =>
        rw [List.foldl_cons, List.foldl_cons, addAdj?_canon P _ (hl p List.mem_cons_self)]
        exact ih _ fun q hq => hl q (List.mem_cons_of_mem _ hq)

theorem evaluateAdj_tape_canon (P : BV → Prop) (bs : Blocks ℝ ℝ ℝ) (hP : ∀ v, OnTape bs v → P v) (m : Bool) (h : FHeap) :
    evaluateAdj bs m (canon P h) = canon P (evaluateAdj bs m h) := by
  induction bs with
  | nil => rfl
  | cons b bs ih =>
    rw [evaluateAdj_cons, evaluateAdj_cons, ih fun v ⟨b', hb', h'⟩ => hP v ⟨b', List.mem_cons_of_mem _ hb', h'⟩,
      evaluateAdj_canon P b (fun d hd => hP d ⟨b, List.mem_cons_self, Or.inl hd⟩) (fun d hd => hP d ⟨b, List.mem_cons_self, Or.inr hd⟩)]

theorem canon_markControls (P : BV → Prop) (cs : List BV) (m : Bool) (h : FHeap) : canon P (markControls cs m h) = canon P h := by
  funext v
  unfold canon
  rw [saved_markControls]
  split
  · rw [markControls_apply]; split <;> rfl
  · rfl

/-- The heap without tangent and Hessian values. -/
def wipe (h : FHeap) : FHeap := fun v => { h v with tlm := none, hess := none }

theorem wipe_update (h : FHeap) (v : BV) (x : Var ℝ ℝ ℝ) :
    wipe (Function.update h v x) = Function.update (wipe h) v { x with tlm := none, hess := none } := by
  funext w
  by_cases hw : w = v
  · subst hw; simp [wipe]
  · simp [wipe, Function.update_of_ne hw]

theorem wipe_resetAdj (bs : Blocks ℝ ℝ ℝ) (h : FHeap) :
    wipe (resetVariables bs .adjoint h) = resetVariables bs .adjoint (wipe h) := by
  funext v
  unfold wipe
  rw [resetVariables_apply, resetVariables_apply]
  split <;> rfl

theorem wipe_markAll (ns : List BV) (m : Bool) (h : FHeap) :
    wipe (markAll ns m h) = markAll ns m (wipe h) := by
  unfold markAll
  induction ns generalizing h with
  | nil => rfl
  | cons n ns ih => simp only [List.foldl_cons]; rw [ih, wipe_update]; rfl

theorem wipe_markControls (ns : List BV) (m : Bool) (h : FHeap) :
    wipe (markControls ns m h) = markControls ns m (wipe h) := by
  unfold markControls
  induction ns generalizing h with
  | nil => rfl
  | cons n ns ih => simp only [List.foldl_cons]; rw [ih, wipe_update]; rfl

theorem wipe_addAdj? (h : FHeap) (v : BV) (a : Option ℝ) :
    wipe (addAdj? h v a) = addAdj? (wipe h) v a := by
  cases a with
  | none => rfl
  | some a => 
    show wipe (addAdj h v a) = addAdj (wipe h) v a
    unfold addAdj
    rw [wipe_update]; rfl

theorem wipe_blockAdj (b : Block ℝ ℝ ℝ) (m : Bool) (h : FHeap) :
    wipe (b.evaluateAdj m h) = b.evaluateAdj m (wipe h) := by
  unfold Block.evaluateAdj
  simp only []
  have h1 : (b.outs.map fun o => (wipe h o).adj) = b.outs.map fun o => (h o).adj := rfl
  have h2 : b.deps.map (saved (wipe h)) = b.deps.map (saved h) := rfl
  have h3 : relevant (wipe h) m b.deps = relevant h m b.deps := rfl
  rw [h1, h2, h3]
  split
  · rfl
  · split
    · rfl
    · generalize relevant h m b.deps = l
      generalize b.deps.map (saved h) = ins
      generalize (b.outs.map fun o => (h o).adj) = adjs
      clear h1 h2 h3
      rename_i ha hb; clear ha hb
      induction l generalizing h with
      | nil => rfl
      | cons p l ih => simp only [List.foldl_cons]; rw [ih, wipe_addAdj?]

theorem wipe_evaluateAdj (bs : Blocks ℝ ℝ ℝ) (m : Bool) (h : FHeap) :
    wipe (evaluateAdj bs m h) = evaluateAdj bs m (wipe h) := by
  induction bs with
  | nil => rfl
  | cons b bs ih => rw [evaluateAdj_cons, evaluateAdj_cons, wipe_blockAdj, ih]

theorem wipe_computeGradientState (bs : Blocks ℝ ℝ ℝ) (J : BV) (cs : List BV) (seed : ℝ) (h : FHeap) :
    wipe (computeGradientState bs J cs seed h) = computeGradientState bs J cs seed (wipe h) := by
  unfold computeGradientState markedAdjoint
  simp only []
  rw [wipe_markAll, wipe_markControls, wipe_evaluateAdj, wipe_markControls, wipe_markAll,
    wipe_update, wipe_resetAdj]
  congr 6
  rw [← wipe_resetAdj]
  rfl


/-- The state after `compute_gradient`, reduced to what the sweeps read. -/
theorem computeGradientState_canon (t : FTape) (J : BV) (cs : List BV) (seed : ℝ) (h : FHeap) :
    let P := touched t cs J
    canon P (computeGradientState t.blocks J cs seed h)
      = markAll (findRelevantNodes t.blocks cs) false (evaluateAdj t.blocks true (markAll (findRelevantNodes t.blocks cs) true
          (Function.update (canon P (resetVariables t.blocks .adjoint h)) J
            { canon P (resetVariables t.blocks .adjoint h) J with adj := some seed }))) := by
  intro P
  have hns := findRelevantNodes_touched t cs J
  have hJ : P J := Or.inr (Or.inr rfl)
  unfold computeGradientState markedAdjoint
  simp only []
  rw [canon_update P (resetVariables t.blocks .adjoint h) hJ { resetVariables t.blocks .adjoint h J with adj := some seed } _ rfl rfl
      (by rw [canon_pos P hJ]; rfl), markAll_canon P _ hns]
  rw [← canon_markControls P cs true (markAll _ true _), evaluateAdj_tape_canon P t.blocks (fun v hv => Or.inl hv),
    ← canon_markControls P cs false (evaluateAdj _ _ _), markAll_canon P _ hns]

/-- The adjoint values `compute_gradient` leaves on the tape are a function of the saved values. -/
theorem adj_of_saved (t : FTape) (J : BV) (cs : List BV) (seed : ℝ) (hon : ∀ v, touched t cs J v → OnTape t.blocks v) (g₁ g₀ : FHeap)
    (hsv : ∀ v, touched t cs J v → saved g₁ v = saved g₀ v) (m₁ : ∀ v, (g₁ v).marked = false) (m₀ : ∀ v, (g₀ v).marked = false) :
    ∀ v, touched t cs J v → (computeGradientState t.blocks J cs seed g₁ v).adj = (computeGradientState t.blocks J cs seed g₀ v).adj := by
  intro v hv
  have e : canon (touched t cs J) (resetVariables t.blocks .adjoint (wipe g₁)) = canon (touched t cs J) (resetVariables t.blocks .adjoint (wipe g₀)) := by
    funext v
    by_cases hv : touched t cs J v
    · rw [canon_pos _ hv, canon_pos _ hv]
      have hs : ∀ g : FHeap, saved (resetVariables t.blocks .adjoint (wipe g)) v = saved g v := by
        intro g; rw [saved_resetVariables]; rfl
      rw [hs, hs, hsv v hv, resetVariables_apply, resetVariables_apply, if_pos (hon v hv), if_pos (hon v hv)]
      simp only [canonVar, Var.reset, wipe, m₁ v, m₀ v]
    · unfold canon
      rw [if_neg hv, if_neg hv]
  have k₁ := computeGradientState_canon t J cs seed (wipe g₁)
  have k₀ := computeGradientState_canon t J cs seed (wipe g₀)
  simp only [] at k₁ k₀
  rw [e, ← k₀, ← wipe_computeGradientState, ← wipe_computeGradientState] at k₁
  have := congrArg Var.adj (congrFun k₁ v)
  rw [canon_adj _ hv, canon_adj _ hv] at this
  exact this

/-! ## The theorem -/

/-- **C55.** Whatever was evaluated and differentiated before, on this tape, by this or another functional, including evaluations that raised at any
point: after `rf(x)`, the values on the tape, the gradient, and the Hessian action (computed after the gradient, as `hessian` requires) are those
on the tape as it was first. -/
theorem history_independent (t : FTape) (wf : WF t.blocks) (cs : List BV) (hnd : cs.Nodup) (J : BV) (hJ : OnTape t.blocks J)
    (hcs : ∀ c ∈ cs, OnTape t.blocks c) (h₀ : FHeap) (hfl : ∀ v, (h₀ v).isControl = false) (hmk : ∀ v, (h₀ v).marked = false)
    (l : List TapeCall) (h : FHeap) (hr : runCalls t cs l h₀ = .ok h) (x : List ℝ) (hx : x.length = cs.length) (seed : ℝ) (ds : List ℝ) :
    (∀ v, saved (rfEval t.blocks cs x h) v = saved (rfEval t.blocks cs x h₀) v) ∧
    (computeGradient t.blocks J cs seed (rfEval t.blocks cs x h)).1 = (computeGradient t.blocks J cs seed (rfEval t.blocks cs x h₀)).1 ∧
    (t.computeHessian J cs ds (computeGradientState t.blocks J cs seed (rfEval t.blocks cs x h))).map (·.1)
      = (t.computeHessian J cs ds (computeGradientState t.blocks J cs seed (rfEval t.blocks cs x h₀))).map (·.1) := by
  have s : SameBase t cs h₀ h := SameBase.run wf l ⟨fun _ => rfl, hfl, hmk, fun _ _ => rfl⟩ hr
  have hsv : ∀ v, saved (rfEval t.blocks cs x h) v = saved (rfEval t.blocks cs x h₀) v :=
    evaluation_history_independent wf cs hnd x hx t.total h h₀ s.flags hfl s.output s.kept
  refine ⟨hsv, gradient_of_saved wf J cs seed _ _ hsv fun c hc => Or.inl (hcs c hc), ?_⟩
  have hon : ∀ v, touched t cs J v → OnTape t.blocks v := by
    rintro v (hv | hv | rfl)
    · exact hv
    · exact hcs v hv
    · exact hJ
  have m₁ : ∀ v, (rfEval t.blocks cs x h v).marked = false := fun v => by
    obtain ⟨o, ho⟩ := rfEval_frame t.blocks cs x h v (fun c _ => s.flags c); rw [ho]; exact s.marks v
  have m₀ : ∀ v, (rfEval t.blocks cs x h₀ v).marked = false := fun v => by
    obtain ⟨o, ho⟩ := rfEval_frame t.blocks cs x h₀ v (fun c _ => hfl c); rw [ho]; exact hmk v
  have f₁ : ∀ v, (rfEval t.blocks cs x h v).isControl = false := fun v => by
    obtain ⟨o, ho⟩ := rfEval_frame t.blocks cs x h v (fun c _ => s.flags c); rw [ho]; exact s.flags v
  have f₀ : ∀ v, (rfEval t.blocks cs x h₀ v).isControl = false := fun v => by
    obtain ⟨o, ho⟩ := rfEval_frame t.blocks cs x h₀ v (fun c _ => hfl c); rw [ho]; exact hfl v
  generalize rfEval t.blocks cs x h = g₁ at *
  generalize rfEval t.blocks cs x h₀ = g₀ at *
  have ha := adj_of_saved t J cs seed hon g₁ g₀ (fun v _ => hsv v) m₁ m₀
  refine hessian_of_saved t J cs ds _ _ (fun v _ => ?_) ha (fun v _ => ?_) fun v hv => Or.inl (hon v hv)
  · obtain ⟨a, e1⟩ := computeGradientState_adj_frame t.blocks J cs seed g₁ f₁ m₁ v
    obtain ⟨b, e0⟩ := computeGradientState_adj_frame t.blocks J cs seed g₀ f₀ m₀ v
    have := hsv v
    unfold saved at this ⊢
    rw [e1, e0]; exact this
  · obtain ⟨a, e1⟩ := computeGradientState_adj_frame t.blocks J cs seed g₁ f₁ m₁ v
    obtain ⟨b, e0⟩ := computeGradientState_adj_frame t.blocks J cs seed g₀ f₀ m₀ v
    rw [e1, e0]
    exact (m₁ v).trans (m₀ v).symm

example : WF sqTape.blocks ∧ [0].Nodup ∧ OnTape sqTape.blocks 1 ∧ OnTape sqTape.blocks 0 ∧
    ∃ h, runCalls sqTape [0] [.eval [2], .derivative 1 [0] 1, .hessian 1 [0] [1], .crash [5] 0 0, .derivative 0 [0] 3] unitHeap = .ok h :=
  ⟨sqTape_wf, by simp, ⟨_, List.mem_cons_self, Or.inr (List.mem_singleton.2 rfl)⟩, ⟨_, List.mem_cons_self, Or.inl (List.mem_cons_self)⟩, ⟨_, rfl⟩⟩

end Pyadjoint
