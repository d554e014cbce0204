import Verif.Proofs.HessCongr
import Verif.Props.Hessian

/-! # `compute_hessian` when the operations' results have no adjoint value -/

namespace Pyadjoint

open Classical

/-- The heap with other adjoint values. -/
def withAdj (a : BV → Option ℝ) (h : FHeap) : FHeap := fun v => { h v with adj := a v }

theorem withAdj_update (a : BV → Option ℝ) (h : FHeap) (v : BV) (x x' : Var ℝ ℝ ℝ) (hx : x' = { x with adj := a v }) :
    Function.update (withAdj a h) v x' = withAdj a (Function.update h v x) := by
  funext w
  by_cases hw : w = v
  · subst hw
    show _ = { Function.update h w x w with adj := a w }
    rw [Function.update_self, Function.update_self, hx]
  · show _ = { Function.update h v x w with adj := a w }
    rw [Function.update_of_ne hw, Function.update_of_ne hw]
    rfl

theorem saved_withAdj (a : BV → Option ℝ) (h : FHeap) (v : BV) : saved (withAdj a h) v = saved h v := rfl

theorem addHess_withAdj (a : BV → Option ℝ) (h : FHeap) (v : BV) (x : ℝ) :
    addHess (withAdj a h) v x = withAdj a (addHess h v x) := by
  unfold addHess
  exact withAdj_update a h v _ _ rfl

theorem addTlm?_withAdj (a : BV → Option ℝ) (h : FHeap) (v : BV) (x : Option ℝ) :
    addTlm? (withAdj a h) v x = withAdj a (addTlm? h v x) := by
  cases x with
  | none => rfl
  | some x => exact withAdj_update a h v _ _ rfl

theorem markAll_withAdj (a : BV → Option ℝ) (ns : List BV) (m : Bool) (h : FHeap) :
    markAll ns m (withAdj a h) = withAdj a (markAll ns m h) := by
  unfold markAll
  induction ns generalizing h with
  | nil => rfl
  | cons n ns ih =>
    simp only [List.foldl_cons]
    rw [withAdj_update a h n { h n with marked := m } _ (by rfl)]
    exact ih _

theorem seedTlm_withAdj (a : BV → Option ℝ) (cs : List BV) (ds : List ℝ) (h : FHeap) :
    seedTlm cs ds (withAdj a h) = withAdj a (seedTlm cs ds h) := by
  unfold seedTlm
  generalize cs.zip ds = l
  induction l generalizing h with
  | nil => rfl
  | cons p l ih =>
    simp only [List.foldl_cons]
    rw [withAdj_update a h p.1 { h p.1 with tlm := some p.2 } _ (by rfl)]
    exact ih _

theorem resetVariables_withAdj (a : BV → Option ℝ) (bs : Blocks ℝ ℝ ℝ) (ty : ResetType) (hty : ty ≠ .adjoint)
    (h : FHeap) : resetVariables bs ty (withAdj a h) = withAdj a (resetVariables bs ty h) := by
  funext v
  show _ = { resetVariables bs ty h v with adj := a v }
  rw [resetVariables_apply, resetVariables_apply]
  split
  · cases ty with
    | adjoint => exact absurd rfl hty
    | tlm => rfl
    | hessian => rfl
  · rfl

theorem blockTlm_withAdj (a : BV → Option ℝ) (b : Block ℝ ℝ ℝ) (m : Bool) (h : FHeap) :
    b.evaluateTlm m (withAdj a h) = withAdj a (b.evaluateTlm m h) := by
  funext v
  show _ = { b.evaluateTlm m h v with adj := a v }
  rw [Block.evaluateTlm_apply, Block.evaluateTlm_apply]
  rfl

theorem FBlock.evaluateTlm_withAdj (a : BV → Option ℝ) (b : FBlock) (m : Bool) (h : FHeap) :
    b.evaluateTlm m (withAdj a h) = withAdj a (b.evaluateTlm m h) := by
  cases b with
  | un op x o => exact blockTlm_withAdj a _ m h
  | bin op x y o =>
    cases op <;> first
      | exact blockTlm_withAdj a _ m h
      | (simp only [FBlock.evaluateTlm, addTlm?_withAdj, saved_withAdj]; rfl)

theorem FTape.evaluateTlm_withAdj (a : BV → Option ℝ) (t : FTape) (m : Bool) (h : FHeap) :
    t.evaluateTlm m (withAdj a h) = withAdj a (t.evaluateTlm m h) := by
  unfold FTape.evaluateTlm
  induction t generalizing h with
  | nil => rfl
  | cons b t ih => rw [List.foldl_cons, List.foldl_cons, FBlock.evaluateTlm_withAdj]; exact ih _

theorem preHess_withAdj (a : BV → Option ℝ) (t : FTape) (J : BV) (cs : List BV) (ds : List ℝ) (h : FHeap) :
    preHess t J cs ds (withAdj a h) = withAdj a (preHess t J cs ds h) := by
  unfold preHess
  simp only [resetVariables_withAdj a t.blocks .tlm ResetType.noConfusion,
    resetVariables_withAdj a t.blocks .hessian ResetType.noConfusion, seedTlm_withAdj, markAll_withAdj,
    FTape.evaluateTlm_withAdj]
  rw [withAdj_update a _ J { (markAll (findRelevantNodes t.blocks cs) false _) J with hess := some 0 } _ (by rfl),
    markAll_withAdj]

/-- The Hessian values are absent or zero. -/
def HessZero (P : BV → Prop) (h : FHeap) : Prop := ∀ v, P v → (h v).hess = none ∨ (h v).hess = some 0

theorem HessZero.addHess {P : BV → Prop} {h : FHeap} (hz : HessZero P h) (v : BV) (x : ℝ) (hx : x = 0) :
    HessZero P (addHess h v x) := by
  subst hx
  intro w hw
  unfold Pyadjoint.addHess
  by_cases e : w = v
  · subst e
    rw [Function.update_self]
    rcases hz w hw with hw | hw <;> simp [hw]
  · rw [Function.update_of_ne e]
    exact hz w hw

theorem mulHessC_no_adj (i : List ℝ) (idx : Nat) (rel : List (Nat × Option ℝ)) {x : ℝ}
    (h : FBlock.mulHessC i 0 none idx rel = .ok x) :
    x = 0 ∧ ∀ l, FBlock.mulHessC i 0 l idx rel = .ok x := by
  have key : ∀ (rel : List (Nat × Option ℝ)) (k : Nat) (r : ℝ × Nat),
      (List.foldlM (m := Except FBlock.PyErr) (fun (acc : ℝ × Nat) (q : Nat × Option ℝ) =>
        match decide (q.1 ≠ idx), q.2 with
        | true, some t => do
          let a ← FBlock.needFloat none
          pure (a * t, q.1)
        | _, _ => pure (acc.1, q.1)) ((0 : ℝ), k) rel) = .ok r → r.1 = 0 ∧ ∀ l,
      (List.foldlM (m := Except FBlock.PyErr) (fun (acc : ℝ × Nat) (q : Nat × Option ℝ) =>
        match decide (q.1 ≠ idx), q.2 with
        | true, some t => do
          let a ← FBlock.needFloat l
          pure (a * t, q.1)
        | _, _ => pure (acc.1, q.1)) ((0 : ℝ), k) rel) = .ok r := by
    intro rel
    induction rel with
    | nil => intro k r hr; cases hr; exact ⟨rfl, fun _ => rfl⟩
    | cons q rel ih =>
      intro k r hr
      obtain ⟨j, tl⟩ := q
      rw [List.foldlM_cons] at hr
      cases hd : decide (j ≠ idx) with
      | false =>
        dsimp only at hr
        rw [hd] at hr
        obtain ⟨h1, h2⟩ := ih j r hr
        refine ⟨h1, fun l => ?_⟩
        rw [List.foldlM_cons]
        dsimp only
        rw [hd]
        exact h2 l
      | true =>
        dsimp only at hr
        rw [hd] at hr
        cases tl with
        | some t => cases hr
        | none =>
          obtain ⟨h1, h2⟩ := ih j r hr
          refine ⟨h1, fun l => ?_⟩
          rw [List.foldlM_cons]
          dsimp only
          rw [hd]
          exact h2 l
  unfold FBlock.mulHessC at h ⊢
  dsimp only at h ⊢
  cases hf : (List.foldlM (m := Except FBlock.PyErr) (fun (acc : ℝ × Nat) (q : Nat × Option ℝ) =>
        match decide (q.1 ≠ idx), q.2 with
        | true, some t => do
          let a ← FBlock.needFloat none
          pure (a * t, q.1)
        | _, _ => pure (acc.1, q.1)) ((0 : ℝ), if idx = 1 then 0 else 1) rel) with
  | error e => erw [hf] at h; cases h
  | ok r =>
    erw [hf] at h
    obtain ⟨h1, h2⟩ := key rel _ r hf
    have hx : r.1 + 0 * i.getD r.2 0 = x := by cases h; rfl
    refine ⟨by rw [← hx, h1]; simp, fun l => ?_⟩
    erw [h2 l, ← hx]
    rfl

theorem evaluateHessianDefault_no_adj (P : BV → Prop) (a : BV → Option ℝ) (deps : List BV) (o : BV) (m : Bool)
    (comp : List ℝ → ℝ → Option ℝ → Nat → List (Nat × Option ℝ) → Except FBlock.PyErr ℝ)
    (hcomp : ∀ i idx rel x, comp i 0 none idx rel = .ok x → x = 0 ∧ ∀ l, comp i 0 l idx rel = .ok x)
    {h h' : FHeap} (ho : P o) (hadj : (h o).adj = none) (hz : HessZero P h)
    (hok : FBlock.evaluateHessianDefault deps o m comp h = .ok h') :
    HessZero P h' ∧ FBlock.evaluateHessianDefault deps o m comp (withAdj a h) = .ok (withAdj a h') := by
  unfold FBlock.evaluateHessianDefault at hok ⊢
  have e1 : (withAdj a h o).hess = (h o).hess := rfl
  have e2 : (withAdj a h o).adj = a o := rfl
  rw [e1, e2]
  rw [hadj] at hok
  rcases hz o ho with hh | hh
  · rw [hh] at hok ⊢
    cases hok
    exact ⟨hz, rfl⟩
  · rw [hh] at hok ⊢
    dsimp only at hok ⊢
    have e3 : relevant (withAdj a h) m deps = relevant h m deps := rfl
    have e4 : ((relevant h m deps).map fun q => (q.2, (withAdj a h q.1).tlm)) =
        (relevant h m deps).map fun q => (q.2, (h q.1).tlm) := rfl
    have e5 : deps.map (saved (withAdj a h)) = deps.map (saved h) := rfl
    rw [e3, e4, e5]
    clear hh hadj e1 e2 e3 e4 e5
    generalize ((relevant h m deps).map fun q => (q.2, (h q.1).tlm)) = rel at hok ⊢
    generalize deps.map (saved h) = inputs at hok ⊢
    generalize relevant h m deps = l at hok ⊢
    induction l generalizing h with
    | nil => cases hok; exact ⟨hz, rfl⟩
    | cons p l ih =>
      rw [List.foldlM_cons] at hok ⊢
      cases hp : comp inputs 0 none p.2 rel with
      | error e => rw [hp] at hok; cases hok
      | ok x =>
        rw [hp] at hok
        obtain ⟨hx, hl⟩ := hcomp _ _ _ _ hp
        have := ih (hz.addHess p.1 x hx) hok
        rw [← addHess_withAdj] at this
        rw [hl]
        exact this

theorem FBlock.evaluateHessian_no_adj (P : BV → Prop) (a : BV → Option ℝ) (b : FBlock) (m : Bool) {h h' : FHeap}
    (ho : P b.out) (hadj : (h b.out).adj = none) (hz : HessZero P h) (hok : b.evaluateHessian m h = .ok h') :
    HessZero P h' ∧ b.evaluateHessian m (withAdj a h) = .ok (withAdj a h') := by
  have hzero := hz b.out ho
  cases b with
  | un op x o =>
    cases op with
    | neg =>
      simp only [FBlock.evaluateHessian] at hok ⊢
      show _ ∧ (match (h o).hess with
        | none => Except.ok (withAdj a h)
        | some hin => Except.ok (addHess (withAdj a h) x (-hin))) = _
      rcases hzero with hh | hh <;> change (h o).hess = _ at hh <;> rw [hh] at hok ⊢ <;> cases hok
      · exact ⟨hz, rfl⟩
      · exact ⟨hz.addHess x _ neg_zero, by dsimp only; rw [addHess_withAdj]⟩
    | exp =>
      unfold FBlock.evaluateHessian at hok ⊢
      exact evaluateHessianDefault_no_adj P a _ o m _ (fun i _ _ x hx => by
        cases hx; exact ⟨mul_zero _, fun _ => rfl⟩) ho hadj hz hok
    | log =>
      unfold FBlock.evaluateHessian at hok ⊢
      exact evaluateHessianDefault_no_adj P a _ o m _ (fun i _ _ x hx => by
        cases hx; exact ⟨by simp, fun _ => rfl⟩) ho hadj hz hok
  | bin op x y o =>
    cases op with
    | add =>
      unfold FBlock.evaluateHessian at hok ⊢
      exact evaluateHessianDefault_no_adj P a _ o m _ (fun i _ _ x hx => by
        cases hx; exact ⟨rfl, fun _ => rfl⟩) ho hadj hz hok
    | mul =>
      unfold FBlock.evaluateHessian at hok ⊢
      exact evaluateHessianDefault_no_adj P a _ o m _ (fun i idx rel x hx => mulHessC_no_adj i idx rel hx) ho hadj hz hok
    | min =>
      unfold FBlock.evaluateHessian at hok ⊢
      exact evaluateHessianDefault_no_adj P a _ o m _ (fun i _ _ x hx => by
        cases hx; exact ⟨by simp [BOp.adjC], fun _ => rfl⟩) ho hadj hz hok
    | max =>
      unfold FBlock.evaluateHessian at hok ⊢
      exact evaluateHessianDefault_no_adj P a _ o m _ (fun i _ _ x hx => by
        cases hx; exact ⟨by simp [BOp.adjC], fun _ => rfl⟩) ho hadj hz hok
    | sub =>
      simp only [FBlock.evaluateHessian] at hok ⊢
      show _ ∧ (match (h o).hess with
        | none => Except.ok (withAdj a h)
        | some hin => Except.ok (addHess (addHess (withAdj a h) x hin) y (-hin))) = _
      rcases hzero with hh | hh <;> change (h o).hess = _ at hh <;> rw [hh] at hok ⊢ <;> cases hok
      · exact ⟨hz, rfl⟩
      · exact ⟨(hz.addHess x _ rfl).addHess y _ neg_zero, by dsimp only; rw [addHess_withAdj, addHess_withAdj]⟩
    | div =>
      have hadj : (h o).adj = none := hadj
      rcases hzero with hh | hh <;> change (h o).hess = _ at hh
      · simp only [FBlock.evaluateHessian, hh] at hok
        cases hok
        refine ⟨hz, ?_⟩
        have e1 : (withAdj a h o).hess = none := hh
        simp only [FBlock.evaluateHessian, e1]
      · simp only [FBlock.evaluateHessian, hh, hadj, FBlock.needFloat, addHess_tlm_at] at hok
        cases htb : (h y).tlm <;> rw [htb] at hok <;> cases hok
    | pow =>
      have hadj : (h o).adj = none := hadj
      rcases hzero with hh | hh <;> change (h o).hess = _ at hh
      · simp only [FBlock.evaluateHessian, hh] at hok
        cases hok
        refine ⟨hz, ?_⟩
        have e1 : (withAdj a h o).hess = none := hh
        simp only [FBlock.evaluateHessian, e1]
      · simp only [FBlock.evaluateHessian, hh, hadj, FBlock.needFloat, addHess_tlm_at] at hok
        cases hta : (h x).tlm <;> rw [hta] at hok
        · cases htb : (h y).tlm <;>
            simp only [bind, Except.bind, pure, Except.pure, htb] at hok <;> cases hok
        · cases hok

theorem FTape.evaluateHessian_no_adj (P : BV → Prop) (a : BV → Option ℝ) (t : FTape) (m : Bool) {h h' : FHeap}
    (hP : ∀ b ∈ t, P b.out) (hadj : ∀ b ∈ t, (h b.out).adj = none) (hz : HessZero P h)
    (hok : t.evaluateHessian m h = .ok h') :
    HessZero P h' ∧ t.evaluateHessian m (withAdj a h) = .ok (withAdj a h') := by
  induction t generalizing h' with
  | nil => cases hok; exact ⟨hz, rfl⟩
  | cons b t ih =>
    rw [FTape.evaluateHessian_cons] at hok ⊢
    cases h1 : FTape.evaluateHessian t m h with
    | error e => rw [h1] at hok; cases hok
    | ok g =>
      rw [h1] at hok
      obtain ⟨i1, i2⟩ := ih (fun b hb => hP b (List.mem_cons_of_mem _ hb))
        (fun b hb => hadj b (List.mem_cons_of_mem _ hb)) h1
      obtain ⟨o, ho⟩ := FTape.evaluateHessian_frame t m h g h1 b.out
      rw [i2]
      exact FBlock.evaluateHessian_no_adj P a b m (hP b List.mem_cons_self)
        (by rw [ho]; exact hadj b List.mem_cons_self) i1 hok

/-- `compute_hessian` without adjoint values on the results of the operations: if it returns, it returns zeros, and
these are what it returns with any adjoint values. -/
theorem computeHessian_no_adj (t : FTape) (wf : WF t.blocks) (J : BV) (cs : List BV) (ds : List ℝ) {h h' : FHeap}
    {hs : List ℝ} (hadj : ∀ b ∈ t, (h b.out).adj = none) (hcs : ∀ c ∈ cs, OnTape t.blocks c ∨ c = J)
    (hok : t.computeHessian J cs ds h = .ok (hs, h')) (a : BV → Option ℝ) :
    (∀ x ∈ hs, x = 0) ∧ ∃ h'', t.computeHessian J cs ds (withAdj a h) = .ok (hs, h'') := by
  rw [computeHessian_eq] at hok ⊢
  have hf := preHess_fields t wf J cs ds h
  cases h1 : t.evaluateHessian true (preHess t J cs ds h) with
  | error e => rw [h1] at hok; cases hok
  | ok g =>
    rw [h1] at hok
    have hz : HessZero (fun v => OnTape t.blocks v ∨ v = J) (preHess t J cs ds h) := by
      intro v hv
      rw [(hf v).2.2.2]
      by_cases hJ : v = J
      · rw [if_pos hJ]; exact Or.inr rfl
      · rw [if_neg hJ, if_pos (hv.resolve_right hJ)]; exact Or.inl rfl
    obtain ⟨i1, i2⟩ := FTape.evaluateHessian_no_adj _ a t true
      (fun b hb => Or.inl ⟨b.toBlock, List.mem_map.2 ⟨b, hb, rfl⟩, Or.inr ((b.mem_outs b.out).2 rfl)⟩)
      (fun b hb => by rw [(hf b.out).2.1]; exact hadj b hb) hz h1
    rw [preHess_withAdj, i2]
    have hget : ∀ (g : FHeap) (c : BV), getHessian (markAll (findRelevantNodes t.blocks cs) false g) c = getHessian g c := by
      intro g c
      have : (markAll (findRelevantNodes t.blocks cs) false g c).hess = (g c).hess := by
        rw [markAll_apply]
        split <;> rfl
      unfold getHessian
      rw [this]
    have e : hs = cs.map (getHessian g) := by
      cases hok
      exact List.map_congr_left fun c _ => hget g c
    refine ⟨fun x hx => ?_, markAll (findRelevantNodes t.blocks cs) false (withAdj a g), ?_⟩
    · rw [e] at hx
      obtain ⟨c, hc, rfl⟩ := List.mem_map.1 hx
      unfold getHessian
      rcases i1 c (hcs c hc) with hh | hh <;> rw [hh]
    · simp only [Except.map]
      congr 2
      rw [e]
      exact List.map_congr_left fun c _ => hget _ c

end Pyadjoint
