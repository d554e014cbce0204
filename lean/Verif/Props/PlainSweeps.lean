import Verif.Model.PlainSweeps
import Verif.Props.PlainNumbers
import Verif.Props.Hessian
import Verif.Props.Tangent

/-!
# Derivatives with plain Python numbers as values, seeds and directions (C42, C60, C61)
-/

set_option linter.unusedSimpArgs false

namespace Pyadjoint

open PyNum

attribute [local simp] saved_eraseKinds

theorem Except.bind_ok {E : Type*} {α β : Type _} {f : Except E α} {g : α → Except E β} {z : β} :
    (f >>= g) = .ok z ↔ ∃ v, f = .ok v ∧ g v = .ok z := by
  cases f <;> simp [bind, Except.bind]

theorem Except.pure_ok {E α : Type*} {a z : α} : (pure a : Except E α) = .ok z ↔ a = z := by
  simp [pure, Except.pure]

namespace PyNum

theorem fneg_ok {x z : PyNum} : fneg x = .ok z ↔ x.kind ≠ .int ∧ ofFloat (-x.val) = z := by
  unfold fneg; split <;> simp_all

theorem fadd_ok {x y z : PyNum} : fadd x y = .ok z ↔ x.kind ≠ .int ∧ ofFloat (x.val + y.val) = z := by
  unfold fadd; split <;> simp_all

theorem fmul_ok {x y z : PyNum} : fmul x y = .ok z ↔ x.kind ≠ .int ∧ ofFloat (x.val * y.val) = z := by
  unfold fmul; split <;> simp_all

theorem ftruediv_ok {x y z : PyNum} : ftruediv x y = .ok z ↔ x.kind ≠ .int ∧ y.val ≠ 0 ∧ ofFloat (x.val / y.val) = z := by
  unfold ftruediv; split
  · simp_all
  · split <;> simp_all

/-- Where a power is defined and real. -/
def PowDom (x y : ℝ) : Prop := ¬ (x = 0 ∧ y < 0) ∧ (x < 0 → ∃ n : ℤ, y = n)

theorem fpow_ok {x y z : PyNum} : fpow x y = .ok z ↔ x.kind ≠ .int ∧ PowDom x.val y.val ∧ ofFloat (x.val ^ y.val) = z := by
  unfold fpow PowDom; split
  · simp_all
  · split
    · rename_i h; simp [h]
    · split
      · rename_i h
        simp only [reduceCtorEq, false_iff]
        rintro ⟨_, ⟨_, h'⟩, _⟩
        exact h.2 (h' h.1)
      · rename_i h1 h2 h3
        simp only [Except.ok.injEq]
        refine ⟨fun h => ⟨h1, ⟨h2, fun hx => ?_⟩, h⟩, fun h => h.2.2⟩
        by_contra hn
        exact h3 ⟨hx, hn⟩

theorem div_ok {x y z : PyNum} : x.div y = .ok z ↔ y.val ≠ 0 ∧ (⟨if x.kind = .adj then .adj else .float, x.val / y.val⟩ : PyNum) = z := by
  unfold PyNum.div; split <;> simp_all

theorem need_ok {x : Option PyNum} {z : PyNum} : need x = .ok z ↔ x = some z := by
  cases x <;> simp [need]

@[simp] theorem ofFloat_val (r : ℝ) : (ofFloat r).val = r := rfl
@[simp] theorem ofFloat_kind (r : ℝ) : (ofFloat r).kind = .float := rfl
@[simp] theorem ofInt_val (n : ℤ) : (ofInt n).val = n := rfl
@[simp] theorem subInt_val (x : PyNum) (n : ℤ) : (x.subInt n).val = x.val - n := rfl
@[simp] theorem subInt_kind (x : PyNum) (n : ℤ) : (x.subInt n).kind = x.kind := rfl
@[simp] theorem log_val (x : PyNum) : x.log.val = Real.log x.val := rfl
@[simp] theorem log_kind (x : PyNum) : x.log.kind = .float := rfl
@[simp] theorem mul_val (x y : PyNum) : (x.mul y).val = x.val * y.val := rfl
@[simp] theorem mul_kind (x y : PyNum) : (x.mul y).kind = x.kind.join y.kind := rfl
@[simp] theorem neg_val (x : PyNum) : x.neg.val = -x.val := rfl
@[simp] theorem neg_kind (x : PyNum) : x.neg.kind = x.kind := rfl
@[simp] theorem add_val (x y : PyNum) : (x + y).val = x.val + y.val := rfl
@[simp] theorem add_kind (x y : PyNum) : (x + y).kind = x.kind.join y.kind := rfl

end PyNum

theorem Kind.join_int {k l : Kind} : k.join l = .int ↔ k = .int ∧ l = .int := by
  cases k <;> cases l <;> simp [Kind.join]

theorem rpow_int (x : ℝ) (n : ℕ) : x ^ (((n : ℤ) : ℝ)) = x ^ n := by
  rw [Int.cast_natCast, Real.rpow_natCast]

/-! ## What is returned is right -/

@[simp] theorem eraseKinds_adj (h : PHeap) (v : BV) : (eraseKinds h v).adj = (h v).adj.map PyNum.val := rfl
@[simp] theorem eraseKinds_tlm (h : PHeap) (v : BV) : (eraseKinds h v).tlm = (h v).tlm.map PyNum.val := rfl
@[simp] theorem eraseKinds_hess (h : PHeap) (v : BV) : (eraseKinds h v).hess = (h v).hess.map PyNum.val := rfl
@[simp] theorem eraseKinds_marked (h : PHeap) (v : BV) : (eraseKinds h v).marked = (h v).marked := rfl
@[simp] theorem eraseKinds_relevant (h : PHeap) (m : Bool) (l : List BV) : relevant (eraseKinds h) m l = relevant h m l := rfl

theorem eraseKinds_update (h : PHeap) (v : BV) (x : Var PyNum PyNum PyNum) :
    eraseKinds (Function.update h v x) = Function.update (eraseKinds h) v (eraseKinds (fun _ => x) v) := by
  funext w
  by_cases hw : w = v
  · subst hw; simp [eraseKinds]
  · simp [eraseKinds, Function.update_of_ne hw]

theorem eraseKinds_addAdj (h : PHeap) (v : BV) (a : PyNum) : eraseKinds (addAdj h v a) = addAdj (eraseKinds h) v a.val := by
  unfold addAdj
  rw [eraseKinds_update]
  congr 1
  cases hx : (h v).adj <;> simp [eraseKinds, hx]

theorem eraseKinds_addTlm (h : PHeap) (v : BV) (a : PyNum) : eraseKinds (addTlm h v a) = addTlm (eraseKinds h) v a.val := by
  unfold addTlm
  rw [eraseKinds_update]
  congr 1
  cases hx : (h v).tlm <;> simp [eraseKinds, hx]

theorem eraseKinds_addHess (h : PHeap) (v : BV) (a : PyNum) : eraseKinds (addHess h v a) = addHess (eraseKinds h) v a.val := by
  unfold addHess
  rw [eraseKinds_update]
  congr 1
  cases hx : (h v).hess <;> simp [eraseKinds, hx]

theorem foldlM_sound {α : Type*} {f : PHeap → α → Except NumErr PHeap} {g : FHeap → α → FHeap} (l : List α)
    (hfg : ∀ h p h', f h p = .ok h' → eraseKinds h' = g (eraseKinds h) p) (h h' : PHeap) (hr : l.foldlM f h = .ok h') :
    eraseKinds h' = l.foldl g (eraseKinds h) := by
  induction l generalizing h with
  | nil => simp only [List.foldlM_nil, Except.pure_ok] at hr; rw [hr]; rfl
  | cons p l ih =>
    rw [List.foldlM_cons, Except.bind_ok] at hr
    obtain ⟨h₁, h1, h2⟩ := hr
    rw [List.foldl_cons, ← hfg _ _ _ h1]
    exact ih _ h2

theorem UOp.adjNum_sound {op : UOp} {x l v : PyNum} (h : op.adjNum x l = .ok v) : v.val = op.adjC x.val l.val := by
  cases op with
  | neg => obtain ⟨_, rfl⟩ := fneg_ok.1 h; rfl
  | exp => cases h; rfl
  | log => obtain ⟨_, rfl⟩ := div_ok.1 h; rfl

theorem BOp.adjNum_sound {op : BOp} {x y l v : PyNum} {idx : Nat} (h : op.adjNum x y l idx = .ok v) :
    v.val = op.adjC x.val y.val l.val idx := by
  cases op with
  | add => cases h; rfl
  | sub =>
    unfold BOp.adjNum at h; unfold BOp.adjC; simp only at h ⊢
    split at h
    · rename_i hi; cases h; simp [hi]
    · rename_i hi; obtain ⟨_, rfl⟩ := fneg_ok.1 h; simp [hi]
  | mul =>
    obtain ⟨_, rfl⟩ := fmul_ok.1 h
    simp only [BOp.adjC, ofFloat_val]
    by_cases hi : idx = 1 <;> simp [hi]
  | div =>
    unfold BOp.adjNum at h; unfold BOp.adjC; simp only at h ⊢
    split at h
    · rename_i hi
      simp only [Except.bind_ok, ftruediv_ok, fmul_ok] at h
      obtain ⟨_, ⟨_, _, rfl⟩, _, rfl⟩ := h
      simp [hi]
    · rename_i hi
      simp only [Except.bind_ok, ftruediv_ok, fmul_ok, fpow_ok, fneg_ok] at h
      obtain ⟨_, ⟨_, _, rfl⟩, _, ⟨_, _, rfl⟩, _, ⟨_, rfl⟩, _, rfl⟩ := h
      simp only [hi, if_false, ofFloat_val, ofInt_val]
      rw [show ((2 : ℤ) : ℝ) = (((2 : ℕ) : ℤ) : ℝ) by norm_num, rpow_int]
  | pow =>
    unfold BOp.adjNum at h; unfold BOp.adjC; simp only at h ⊢
    split at h
    · rename_i hi
      simp only [Except.bind_ok, fmul_ok, fpow_ok] at h
      obtain ⟨_, ⟨_, rfl⟩, _, ⟨_, _, rfl⟩, _, rfl⟩ := h
      simp [hi]
    · rename_i hi
      simp only [Except.bind_ok, fmul_ok, fpow_ok] at h
      obtain ⟨_, ⟨_, rfl⟩, _, ⟨_, _, rfl⟩, _, rfl⟩ := h
      simp [hi]
  | min => cases h; simp only [BOp.adjC]; split <;> split <;> rfl
  | max => cases h; simp only [BOp.adjC]; split <;> split <;> rfl

theorem fblock_evaluateAdj (b : FBlock) (m : Bool) (h : FHeap) :
    b.toBlock.evaluateAdj m h = match (h b.out).adj with
      | none => h
      | some _ => (relevant h m b.deps).foldl (fun h' p => addAdj? h' p.1
          (b.toBlock.adjC (b.toBlock.deps.map (saved h)) [(h b.out).adj] p.2)) h := by
  unfold Block.evaluateAdj
  have e1 : b.toBlock.outs = [b.out] := by cases b <;> rfl
  have e2 : b.toBlock.deps = b.deps := by cases b <;> rfl
  simp only [e1, e2, List.map_cons, List.map_nil, List.all_cons, List.all_nil, Bool.and_true]
  cases hx : (h b.out).adj with
  | none => simp
  | some l =>
    simp only [Option.isNone_some, Bool.false_eq_true, if_false]
    cases hr : relevant h m b.deps <;> simp

theorem foldlM_mem_sound {α : Type*} {f : PHeap → α → Except NumErr PHeap} {g : FHeap → α → FHeap} (l : List α)
    (hfg : ∀ h h', ∀ p ∈ l, f h p = .ok h' → eraseKinds h' = g (eraseKinds h) p) (h h' : PHeap) (hr : l.foldlM f h = .ok h') :
    eraseKinds h' = l.foldl g (eraseKinds h) := by
  induction l generalizing h with
  | nil => simp only [List.foldlM_nil, Except.pure_ok] at hr; rw [hr]; rfl
  | cons p l ih =>
    rw [List.foldlM_cons, Except.bind_ok] at hr
    obtain ⟨h₁, h1, h2⟩ := hr
    rw [List.foldl_cons, ← hfg _ _ _ (by simp) h1]
    exact ih (fun h h' p hp => hfg h h' p (by simp [hp])) _ h2

theorem FBlock.kEvaluateAdj_sound (b : FBlock) (m : Bool) (h h' : PHeap) (hr : b.kEvaluateAdj m h = .ok h') :
    eraseKinds h' = b.toBlock.evaluateAdj m (eraseKinds h) := by
  rw [fblock_evaluateAdj]
  unfold FBlock.kEvaluateAdj at hr
  cases hx : (h b.out).adj with
  | none => rw [hx] at hr; cases hr; simp [hx]
  | some l =>
    rw [hx] at hr
    simp only [eraseKinds_adj, hx, Option.map_some, eraseKinds_relevant]
    refine foldlM_mem_sound _ (fun g g' p hp hg => ?_) h h' hr
    simp only [Except.bind_ok, Except.pure_ok] at hg
    obtain ⟨v, hv, rfl⟩ := hg
    rw [eraseKinds_addAdj]
    have : b.toBlock.adjC (b.toBlock.deps.map (saved (eraseKinds h))) [some l.val] p.2 = some v.val := by
      cases b with
      | un op a o =>
        rw [UOp.adjNum_sound (v := v) (op := op) hv]
        simp [FBlock.toBlock]
      | bin op a c o =>
        rw [BOp.adjNum_sound (v := v) (op := op) hv]
        simp [FBlock.toBlock]
    rw [this]
    rfl

theorem shape_nodes (t : FTape) (cs : List BV) : findRelevantNodes (t.map FBlock.shape) cs = findRelevantNodes t.blocks cs := by
  unfold findRelevantNodes FTape.blocks
  rw [List.foldl_map, List.foldl_map]
  congr 1
  funext nodes b
  cases b <;> rfl

theorem eraseKinds_reset (t : FTape) (ty : ResetType) (h : PHeap) :
    eraseKinds (resetVariables (t.map FBlock.shape) ty h) = resetVariables t.blocks ty (eraseKinds h) := by
  have one : ∀ (l : List BV) (h : PHeap), eraseKinds (l.foldl (fun h v => Function.update h v ((h v).reset ty)) h)
      = l.foldl (fun h v => Function.update h v ((h v).reset ty)) (eraseKinds h) := by
    intro l
    induction l with
    | nil => intro h; rfl
    | cons v l ih =>
      intro h
      rw [List.foldl_cons, List.foldl_cons, ih, eraseKinds_update]
      congr 2
      cases ty <;> rfl
  unfold resetVariables FTape.blocks
  rw [← List.map_reverse, ← List.map_reverse, List.foldl_map, List.foldl_map]
  generalize t.reverse = l
  induction l generalizing h with
  | nil => rfl
  | cons b l ih =>
    rw [List.foldl_cons, List.foldl_cons, ih]
    congr 1
    have e : b.toBlock.deps ++ b.toBlock.outs = b.shape.deps ++ b.shape.outs := by cases b <;> rfl
    unfold Block.resetVariables
    rw [one, e]

theorem eraseKinds_markAll (nodes : List BV) (m : Bool) (h : PHeap) : eraseKinds (markAll nodes m h) = markAll nodes m (eraseKinds h) := by
  unfold markAll
  induction nodes generalizing h with
  | nil => rfl
  | cons v l ih => rw [List.foldl_cons, List.foldl_cons, ih, eraseKinds_update]; rfl

theorem eraseKinds_seedTlm (cs : List BV) (ds : List PyNum) (h : PHeap) :
    eraseKinds (seedTlm cs ds h) = seedTlm cs (ds.map PyNum.val) (eraseKinds h) := by
  unfold seedTlm
  rw [List.zip_map_right, List.foldl_map]
  generalize cs.zip ds = l
  induction l generalizing h with
  | nil => rfl
  | cons v l ih => rw [List.foldl_cons, List.foldl_cons, ih, eraseKinds_update]; rfl

/-- **What `compute_gradient` returns is right**: whatever types the values and the seed have, if it returns then it
returns the derivatives that C02 is about. -/
theorem gradient_returned (t : FTape) (J : BV) (cs : List BV) (seed : PyNum) (h h' : PHeap) (r : List ℝ)
    (hr : kComputeGradient t J cs seed h = .ok (r, h')) :
    (r, eraseKinds h') = computeGradient t.blocks J cs seed.val (eraseKinds h) := by
  unfold kComputeGradient at hr
  simp only [Except.bind_ok, Except.pure_ok, Prod.mk.injEq] at hr
  obtain ⟨h₁, h1, rfl, rfl⟩ := hr
  have k := foldlM_sound _ (g := fun h b => b.toBlock.evaluateAdj true h) (fun g b g' hg => b.kEvaluateAdj_sound true g g' hg) _ _ h1
  rw [shape_nodes, eraseKinds_markControls, eraseKinds_markAll, eraseKinds_update] at k
  have hs : eraseKinds (markAll (findRelevantNodes (t.map FBlock.shape) cs) false (markControls cs false h₁))
      = computeGradientState t.blocks J cs seed.val (eraseKinds h) := by
    rw [shape_nodes, eraseKinds_markAll, eraseKinds_markControls, k]
    unfold computeGradientState markedAdjoint evaluateAdj
    simp only [FTape.blocks, ← List.map_reverse, List.foldl_map]
    rw [← FTape.blocks, ← eraseKinds_reset]
    rfl
  unfold computeGradient
  rw [hs]
  simp only [Prod.mk.injEq, and_true]
  rw [← hs]
  apply List.map_congr_left
  intro c _
  show _ = getDerivative _ c
  unfold getDerivative
  rw [eraseKinds_adj]
  generalize ((markAll _ false (markControls cs false h₁)) c).adj = x
  cases x <;> rfl

theorem addTlmWith_sound {h h' : PHeap} {o : BV} {t : Option PyNum} {f : PyNum → Except NumErr PyNum} {g : ℝ → ℝ}
    (hfg : ∀ t v, f t = .ok v → v.val = g t.val) (hr : addTlmWith h o t f = .ok h') :
    eraseKinds h' = addTlm? (eraseKinds h) o ((t.map PyNum.val).map g) := by
  unfold addTlmWith at hr
  cases t with
  | none => cases hr; rfl
  | some t =>
    simp only [Except.bind_ok, Except.pure_ok] at hr
    obtain ⟨v, hv, rfl⟩ := hr
    rw [eraseKinds_addTlm, hfg _ _ hv]
    rfl

theorem addHessWith_sound {h h' : PHeap} {o : BV} {t : Option PyNum} {f : PyNum → Except NumErr PyNum} {g : ℝ → ℝ}
    (hfg : ∀ t v, f t = .ok v → v.val = g t.val) (hr : addHessWith h o t f = .ok h') :
    eraseKinds h' = addHess? (eraseKinds h) o ((t.map PyNum.val).map g) := by
  unfold addHessWith at hr
  cases t with
  | none => cases hr; rfl
  | some t =>
    simp only [Except.bind_ok, Except.pure_ok] at hr
    obtain ⟨v, hv, rfl⟩ := hr
    rw [eraseKinds_addHess, hfg _ _ hv]
    rfl

theorem UOp.tlmNum_sound {op : UOp} {x t v : PyNum} (h : op.tlmNum x t = .ok v) : v.val = op.tlmC x.val t.val := by
  cases op with
  | neg => obtain ⟨_, rfl⟩ := fneg_ok.1 h; rfl
  | exp => cases h; rfl
  | log => obtain ⟨_, rfl⟩ := div_ok.1 h; rfl

theorem mulTlmStep_sound {acc v other : PyNum} {t : Option PyNum} (h : mulTlmStep acc t other = .ok v) :
    v.val = acc.val + ((t.map PyNum.val).map (· * other.val)).getD 0 := by
  unfold mulTlmStep at h
  cases t with
  | none => cases h; simp
  | some t =>
    simp only [Except.bind_ok, Except.pure_ok, fmul_ok] at h
    obtain ⟨_, ⟨_, rfl⟩, rfl⟩ := h
    simp

theorem addTlmStep_val (acc : PyNum) (t : Option PyNum) : (addTlmStep acc t).val = acc.val + (t.map PyNum.val).getD 0 := by
  cases t <;> simp [addTlmStep]

theorem BOp.tlmNum_sound {op : BOp} {x y : PyNum} {tx ty v : Option PyNum} (h : op.tlmNum x y tx ty = .ok v) :
    v.map PyNum.val = op.tlmC x.val y.val (tx.map PyNum.val) (ty.map PyNum.val) := by
  cases op with
  | add => cases h; simp [BOp.tlmC, addTlmStep_val]
  | mul =>
    simp only [BOp.tlmNum, Except.bind_ok, Except.pure_ok] at h
    obtain ⟨_, h1, _, h2, rfl⟩ := h
    simp only [Option.map_some, BOp.tlmC, mulTlmStep_sound h2, mulTlmStep_sound h1, ofFloat_val]
  | min => cases h; simp only [BOp.tlmC]; split <;> rfl
  | max => cases h; simp only [BOp.tlmC]; split <;> rfl
  | sub => cases h; rfl
  | div => cases h; rfl
  | pow => cases h; rfl

theorem addTlmWith_keeps {h h' : PHeap} {o : BV} {t : Option PyNum} {f : PyNum → Except NumErr PyNum}
    (hr : addTlmWith h o t f = .ok h') : ∀ v, saved h' v = saved h v := by
  unfold addTlmWith at hr
  cases t with
  | none => cases hr; exact fun _ => rfl
  | some t =>
    simp only [Except.bind_ok, Except.pure_ok] at hr
    obtain ⟨w, _, rfl⟩ := hr
    intro v
    unfold addTlm saved
    by_cases hv : v = o
    · subst hv; simp
    · rw [Function.update_of_ne hv]

theorem FBlock.kEvaluateTlm_sound (b : FBlock) (m : Bool) (h h' : PHeap) (hr : b.kEvaluateTlm m h = .ok h') :
    eraseKinds h' = b.evaluateTlm m (eraseKinds h) := by
  have rel1 : ∀ o, relevant (eraseKinds h) m [o] = if (h o).marked || !m then [(o, 0)] else [] := by
    intro o
    show List.filter _ _ = _
    simp only [List.zipIdx_cons, List.zipIdx_nil]
    rw [List.filter_cons]
    rfl
  have bin : ∀ op a c o, (FBlock.bin op a c o).evaluateTlm m (eraseKinds h) = (FBlock.bin op a c o).toBlock.evaluateTlm m (eraseKinds h) →
      (if (h a).tlm.isNone && (h c).tlm.isNone then .ok h else
        if (h o).marked || !m then do
          let v ← op.tlmNum (saved h a) (saved h c) (h a).tlm (h c).tlm
          pure (addTlm? h o v)
        else .ok h) = Except.ok (ε := NumErr) h' → eraseKinds h' = (FBlock.bin op a c o).evaluateTlm m (eraseKinds h) := by
    intro op a c o he hr
    rw [he]
    unfold Block.evaluateTlm
    simp only [FBlock.toBlock, List.map_cons, List.map_nil, List.all_cons, List.all_nil, Bool.and_true, eraseKinds_tlm,
      Option.isNone_map, rel1]
    split at hr
    · rename_i hn; cases hr; rw [if_pos hn]
    · rename_i hn
      rw [if_neg hn]
      split at hr
      · rename_i hm
        rw [if_pos hm]
        simp only [Except.bind_ok, Except.pure_ok] at hr
        obtain ⟨v, hv, rfl⟩ := hr
        have := BOp.tlmNum_sound hv
        simp only [List.isEmpty_cons, Bool.false_eq_true, if_false, List.foldl_cons, List.foldl_nil, List.getElem?_cons_zero, Option.bind_some,
          List.getElem?_cons_succ, Option.join_some, saved_eraseKinds]
        rw [← this]
        cases v with
        | none => rfl
        | some v => exact eraseKinds_addTlm h o v
      · rename_i hm; cases hr; rw [if_neg hm]; simp
  cases b with
  | un op a o =>
    show _ = Block.evaluateTlm _ m (eraseKinds h)
    unfold Block.evaluateTlm
    unfold FBlock.kEvaluateTlm at hr
    simp only [FBlock.toBlock, List.map_cons, List.map_nil, List.all_cons, List.all_nil, Bool.and_true, eraseKinds_tlm,
      Option.isNone_map, rel1] at hr ⊢
    cases ht : (h a).tlm with
    | none => rw [ht] at hr; cases hr; simp
    | some t =>
      rw [ht] at hr
      simp only [Option.isNone_some, Bool.false_eq_true, if_false] at hr ⊢
      split at hr
      · rename_i hm
        rw [if_pos hm]
        simp only [Except.bind_ok, Except.pure_ok] at hr
        obtain ⟨v, hv, rfl⟩ := hr
        rw [eraseKinds_addTlm, UOp.tlmNum_sound hv]
        simp [addTlm?]
      · rename_i hm; cases hr; rw [if_neg hm]; simp
  | bin op a c o =>
    cases op with
    | add => exact bin _ _ _ _ rfl hr
    | mul => exact bin _ _ _ _ rfl hr
    | min => exact bin _ _ _ _ rfl hr
    | max => exact bin _ _ _ _ rfl hr
    | sub =>
      simp only [FBlock.kEvaluateTlm, Except.bind_ok] at hr
      obtain ⟨h₁, h1, h2⟩ := hr
      have k1 := addTlmWith_sound (g := fun t => t) (by rintro t v ⟨⟩; rfl) h1
      have k2 := addTlmWith_sound (g := fun t => -t) (by intro t v hv; obtain ⟨_, rfl⟩ := fneg_ok.1 hv; rfl) h2
      rw [← eraseKinds_tlm] at k1 k2
      rw [k2, k1, Option.map_id']
      rfl
    | div =>
      simp only [FBlock.kEvaluateTlm, Except.bind_ok] at hr
      obtain ⟨h₁, h1, h2⟩ := hr
      have k1 := addTlmWith_sound (g := fun t => t * (1 / saved (eraseKinds h) c)) (by
        intro t v hv
        simp only [Except.bind_ok, ftruediv_ok, fmul_ok] at hv
        obtain ⟨_, ⟨_, _, rfl⟩, _, rfl⟩ := hv
        simp) h1
      have k2 := addTlmWith_sound (g := fun t => t * (-(saved (eraseKinds h₁) a / (saved (eraseKinds h₁) c) ^ 2))) (by
        intro t v hv
        simp only [Except.bind_ok, ftruediv_ok, fmul_ok, fpow_ok, fneg_ok] at hv
        obtain ⟨_, ⟨_, _, rfl⟩, _, ⟨_, _, rfl⟩, _, ⟨_, rfl⟩, _, rfl⟩ := hv
        simp only [ofFloat_val, ofInt_val, saved_eraseKinds]
        rw [show ((2 : ℤ) : ℝ) = (((2 : ℕ) : ℤ) : ℝ) by norm_num, rpow_int]) h2
      rw [← eraseKinds_tlm] at k1 k2
      rw [k2, k1]
      rfl
    | pow =>
      simp only [FBlock.kEvaluateTlm, Except.bind_ok] at hr
      obtain ⟨h₁, h1, h2⟩ := hr
      have k1 := addTlmWith_sound (g := fun t => (t * saved (eraseKinds h) c) * saved (eraseKinds h) a ^ (saved (eraseKinds h) c - 1)) (by
        intro t v hv
        simp only [Except.bind_ok, fmul_ok, fpow_ok] at hv
        obtain ⟨_, ⟨_, rfl⟩, _, ⟨_, _, rfl⟩, _, rfl⟩ := hv
        simp) h1
      have k2 := addTlmWith_sound (g := fun t => (t * Real.log (saved (eraseKinds h) a)) * saved (eraseKinds h) a ^ saved (eraseKinds h) c) (by
        intro t v hv
        simp only [Except.bind_ok, fmul_ok, fpow_ok] at hv
        obtain ⟨_, ⟨_, rfl⟩, _, ⟨_, _, rfl⟩, _, rfl⟩ := hv
        simp) h2
      rw [← eraseKinds_tlm] at k1 k2
      rw [k2, k1]
      rfl

/-- **What the tangent sweep stores is right**, whatever the types. -/
theorem tangent_stored (t : FTape) (m : Bool) (h h' : PHeap) (hr : kEvaluateTlm t m h = .ok h') :
    eraseKinds h' = t.evaluateTlm m (eraseKinds h) :=
  foldlM_sound _ (fun g b g' hg => b.kEvaluateTlm_sound m g g' hg) _ _ hr

theorem foldlM_ok_sound {α : Type*} {f : PHeap → α → Except NumErr PHeap} {g : FHeap → α → Except FBlock.PyErr FHeap} (l : List α)
    (hfg : ∀ h h', ∀ p ∈ l, f h p = .ok h' → g (eraseKinds h) p = .ok (eraseKinds h')) (h h' : PHeap) (hr : l.foldlM f h = .ok h') :
    l.foldlM g (eraseKinds h) = .ok (eraseKinds h') := by
  induction l generalizing h with
  | nil => simp only [List.foldlM_nil, Except.pure_ok] at hr; rw [hr]; rfl
  | cons p l ih =>
    rw [List.foldlM_cons, Except.bind_ok] at hr
    obtain ⟨h₁, h1, h2⟩ := hr
    rw [List.foldlM_cons, hfg _ _ _ (by simp) h1]
    exact ih (fun h h' p hp => hfg h h' p (by simp [hp])) _ h2

theorem kHessianDefault_sound {deps : List BV} {o : BV} {m : Bool} {h h' : PHeap}
    {comp : PyNum → Option PyNum → Nat → List (Nat × Option PyNum) → Except NumErr PyNum}
    {comp' : List ℝ → ℝ → Option ℝ → Nat → List (Nat × Option ℝ) → Except FBlock.PyErr ℝ}
    (hc : ∀ hin adj idx rel v, (∀ q ∈ rel, q.1 < deps.length) → comp hin adj idx rel = .ok v →
      comp' (deps.map (saved (eraseKinds h))) hin.val (adj.map PyNum.val) idx (rel.map fun q => (q.1, q.2.map PyNum.val)) = .ok v.val)
    (hr : kHessianDefault deps o m comp h = .ok h') :
    FBlock.evaluateHessianDefault deps o m comp' (eraseKinds h) = .ok (eraseKinds h') := by
  unfold kHessianDefault at hr
  unfold FBlock.evaluateHessianDefault
  cases hx : (h o).hess with
  | none => rw [hx] at hr; cases hr; simp [hx]
  | some hin =>
    rw [hx] at hr
    simp only [eraseKinds_hess, hx, Option.map_some, eraseKinds_relevant]
    refine foldlM_ok_sound _ (fun g g' p hp hg => ?_) h h' hr
    simp only [Except.bind_ok, Except.pure_ok] at hg
    obtain ⟨v, hv, rfl⟩ := hg
    have := hc _ _ _ _ _ (by
      intro q hq
      obtain ⟨⟨v, i⟩, hq', rfl⟩ := List.mem_map.1 hq
      have := (List.mem_filter.1 hq').1
      rw [List.mem_zipIdx_iff_getElem?] at this
      exact (List.getElem?_eq_some_iff.1 this).1) hv
    rw [List.map_map] at this
    rw [eraseKinds_adj, eraseKinds_addHess]
    erw [this]
    rfl

theorem mulHess_fold_sound {adj : Option PyNum} {idx : Nat} (rel : List (Nat × Option PyNum)) (acc r : PyNum × Nat)
    (hr : rel.foldlM (mulHessStep adj idx) acc = .ok r) :
    (rel.map fun q => (q.1, q.2.map PyNum.val)).foldlM (fun (acc : ℝ × Nat) (q : Nat × Option ℝ) =>
      match decide (q.1 ≠ idx), q.2 with
      | true, some t => do
        let a ← FBlock.needFloat (adj.map PyNum.val)
        pure (a * t, q.1)
      | _, _ => pure (acc.1, q.1)) (acc.1.val, acc.2) = .ok (r.1.val, r.2) := by
  induction rel generalizing acc with
  | nil => simp only [List.foldlM_nil, Except.pure_ok] at hr; subst hr; rfl
  | cons q rel ih =>
    rw [List.foldlM_cons, Except.bind_ok] at hr
    obtain ⟨acc', h1, h2⟩ := hr
    rw [List.map_cons, List.foldlM_cons]
    have i := ih _ h2
    unfold mulHessStep at h1
    obtain ⟨qi, qt⟩ := q
    dsimp only at h1 ⊢
    generalize decide (qi ≠ idx) = d at h1 ⊢
    cases d with
    | false => cases h1; exact i
    | true =>
      cases qt with
      | none => cases h1; exact i
      | some t =>
        simp only [Except.bind_ok, Except.pure_ok, need_ok, fmul_ok] at h1
        obtain ⟨l, rfl, _, ⟨_, rfl⟩, rfl⟩ := h1
        exact i

theorem mulHess_fold_lt {adj : Option PyNum} {idx : Nat} (rel : List (Nat × Option PyNum)) (hrel : ∀ q ∈ rel, q.1 < 2) (acc r : PyNum × Nat)
    (ha : acc.2 < 2) (hr : rel.foldlM (mulHessStep adj idx) acc = .ok r) : r.2 < 2 := by
  induction rel generalizing acc with
  | nil => simp only [List.foldlM_nil, Except.pure_ok] at hr; subst hr; exact ha
  | cons q rel ih =>
    rw [List.foldlM_cons, Except.bind_ok] at hr
    obtain ⟨acc', h1, h2⟩ := hr
    refine ih (fun q hq => hrel q (by simp [hq])) acc' ?_ h2
    have hq := hrel q (by simp)
    unfold mulHessStep at h1
    split at h1
    · simp only [Except.bind_ok, Except.pure_ok] at h1
      obtain ⟨_, _, _, _, rfl⟩ := h1
      exact hq
    · cases h1; exact hq

theorem mulHessNum_sound {x y hin v : PyNum} {adj : Option PyNum} {idx : Nat} {rel : List (Nat × Option PyNum)}
    (hrel : ∀ q ∈ rel, q.1 < 2) (hr : mulHessNum x y hin adj idx rel = .ok v) :
    FBlock.mulHessC [x.val, y.val] hin.val (adj.map PyNum.val) idx (rel.map fun q => (q.1, q.2.map PyNum.val)) = .ok v.val := by
  simp only [mulHessNum, Except.bind_ok, fmul_ok, fadd_ok] at hr
  obtain ⟨r, h1, _, ⟨_, rfl⟩, _, rfl⟩ := hr
  have k := mulHess_fold_sound rel _ _ h1
  have hlt := mulHess_fold_lt rel hrel _ _ (by dsimp only; split <;> omega) h1
  unfold FBlock.mulHessC
  simp only [ofFloat_val] at k
  show (Except.bind _ _) = _
  refine Eq.trans (congrArg (fun z => Except.bind z _) k) ?_
  show Except.ok _ = _
  congr 1
  obtain ⟨r1, r2⟩ := r
  dsimp only at hlt ⊢
  rcases (by omega : r2 = 0 ∨ r2 = 1) with rfl | rfl <;> rfl

theorem addHess_other {V T A : Type*} [Add A] (h : Heap V T A) (v w : BV) (a : A) :
    (addHess h v a w).tlm = (h w).tlm ∧ (addHess h v a w).adj = (h w).adj ∧ saved (addHess h v a) w = saved h w := by
  unfold addHess saved
  by_cases hw : w = v
  · subst hw; simp
  · rw [Function.update_of_ne hw]; simp

@[simp] theorem addHess_tlm' {V T A : Type*} [Add A] (h : Heap V T A) (v w : BV) (a : A) : (addHess h v a w).tlm = (h w).tlm :=
  (addHess_other h v w a).1

theorem addHessWith_tlm {h h' : PHeap} {o : BV} {t : Option PyNum} {f : PyNum → Except NumErr PyNum}
    (hr : addHessWith h o t f = .ok h') (v : BV) : (h' v).tlm = (h v).tlm := by
  unfold addHessWith at hr
  cases t with
  | none => cases hr; rfl
  | some t =>
    simp only [Except.bind_ok, Except.pure_ok] at hr
    obtain ⟨w, _, rfl⟩ := hr
    simp

theorem kHessianDiv_sound {a c o : BV} {hin : PyNum} {h h' : PHeap} (m : Bool) (hx : (h o).hess = some hin)
    (hr : kHessianDiv a c hin (h o).adj h = .ok h') :
    (FBlock.bin .div a c o).evaluateHessian m (eraseKinds h) = .ok (eraseKinds h') := by
  unfold kHessianDiv at hr
  simp only [Except.bind_ok, fmul_ok, fpow_ok, ftruediv_ok, fneg_ok, need_ok] at hr
  obtain ⟨_, ⟨_, _, rfl⟩, _, ⟨_, rfl⟩, _, ⟨_, _, rfl⟩, _, ⟨_, _, rfl⟩, _, ⟨_, rfl⟩, _, ⟨_, rfl⟩, h₁, h1, _, ⟨_, _, rfl⟩, l, hl, _,
    ⟨_, _, rfl⟩, _, ⟨_, rfl⟩, h₂, h2, h3⟩ := hr
  have k1 := addHessWith_sound (g := fun t => (l.val * ((2 * (saved h a).val) / (saved h c).val ^ 3)) * t) (by
    intro t v hv
    simp only [Except.bind_ok, fmul_ok, fpow_ok, ftruediv_ok, fneg_ok, need_ok] at hv
    obtain ⟨_, ⟨_, rfl⟩, _, ⟨_, _, rfl⟩, _, ⟨_, _, rfl⟩, l', hl', _, ⟨_, rfl⟩, _, rfl⟩ := hv
    rw [hl] at hl'
    cases hl'
    simp only [ofFloat_val, ofInt_val]
    rw [show ((3 : ℤ) : ℝ) = (((3 : ℕ) : ℤ) : ℝ) by norm_num, rpow_int]) h1
  have k2 := addHessWith_sound (g := fun t => t * (-(l.val / (saved h c).val ^ 2))) (by
    intro t v hv
    simp only [Except.bind_ok, fmul_ok, fpow_ok, ftruediv_ok, fneg_ok, need_ok] at hv
    obtain ⟨_, rfl⟩ := hv
    simp only [ofFloat_val, ofInt_val]
    rw [show ((2 : ℤ) : ℝ) = (((2 : ℕ) : ℤ) : ℝ) by norm_num, rpow_int]) h2
  have k3 := addHessWith_sound (g := fun t => t * (-(l.val / (saved h c).val ^ 2))) (by
    intro t v hv
    simp only [Except.bind_ok, fmul_ok, fpow_ok, ftruediv_ok, fneg_ok, need_ok] at hv
    obtain ⟨_, rfl⟩ := hv
    simp only [ofFloat_val, ofInt_val]
    rw [show ((2 : ℤ) : ℝ) = (((2 : ℕ) : ℤ) : ℝ) by norm_num, rpow_int]) h3
  have t1 : ∀ v, (h₁ v).tlm = (h v).tlm := fun v => by rw [addHessWith_tlm h1]; simp
  have t2 : ∀ v, (h₂ v).tlm = (h v).tlm := fun v => by rw [addHessWith_tlm h2, t1]
  rw [k3, k2, k1]
  simp only [addHess_tlm', t1, t2, eraseKinds_addHess]
  unfold FBlock.evaluateHessian
  simp only [eraseKinds_hess, hx, Option.map_some, eraseKinds_adj, hl, FBlock.needFloat, saved_eraseKinds, addHess_tlm', eraseKinds_tlm, ofFloat_val]
  cases hc : (h c).tlm <;> cases ha : (h a).tlm <;> simp [pure, Except.pure, bind, Except.bind, addHess?, hc, ha]

theorem kHessianPow_sound {a c o : BV} {hin : PyNum} {h h' : PHeap} (m : Bool) (hx : (h o).hess = some hin)
    (hr : kHessianPow a c hin (h o).adj h = .ok h') :
    (FBlock.bin .pow a c o).evaluateHessian m (eraseKinds h) = .ok (eraseKinds h') := by
  unfold kHessianPow at hr
  simp only [Except.bind_ok, fmul_ok, fadd_ok, fpow_ok, need_ok] at hr
  obtain ⟨h₁, h1, _, ⟨_, rfl⟩, _, ⟨_, _, rfl⟩, _, ⟨_, rfl⟩, h₂, h2, _, ⟨_, rfl⟩, _, ⟨_, _, rfl⟩, _, ⟨_, rfl⟩, _, ⟨_, _, rfl⟩, _, ⟨_, rfl⟩,
    _, ⟨_, rfl⟩, _, ⟨_, rfl⟩, l, hl, _, ⟨_, rfl⟩, h₃, h3, h4⟩ := hr
  have k1 := addHessWith_sound (g := fun t => ((l.val * ((saved h c).val * ((saved h c).val - 1))) * (saved h a).val ^ ((saved h c).val - 2)) * t) (by
    intro t v hv
    simp only [Except.bind_ok, fmul_ok, fpow_ok, ftruediv_ok, fneg_ok, need_ok] at hv
    obtain ⟨_, ⟨_, rfl⟩, l', hl', _, ⟨_, rfl⟩, _, ⟨_, _, rfl⟩, _, ⟨_, rfl⟩, _, rfl⟩ := hv
    rw [hl] at hl'
    cases hl'
    simp) h1
  have k2 := addHessWith_sound (g := fun t => ((l.val * (Real.log (saved h a).val) ^ 2) * (saved h a).val ^ (saved h c).val) * t) (by
    intro t v hv
    simp only [Except.bind_ok, fmul_ok, fpow_ok, ftruediv_ok, fneg_ok, need_ok] at hv
    obtain ⟨_, ⟨_, _, rfl⟩, l', hl', _, ⟨_, rfl⟩, _, ⟨_, _, rfl⟩, _, ⟨_, rfl⟩, _, rfl⟩ := hv
    rw [hl] at hl'
    cases hl'
    simp only [ofFloat_val, ofInt_val, log_val]
    rw [show ((2 : ℤ) : ℝ) = (((2 : ℕ) : ℤ) : ℝ) by norm_num, rpow_int]) h2
  have k3 := addHessWith_sound (g := fun t => t * (l.val * ((saved h a).val ^ ((saved h c).val - 1) * ((saved h c).val * Real.log (saved h a).val + 1)))) (by
    intro t v hv
    simp only [fmul_ok] at hv
    obtain ⟨_, rfl⟩ := hv
    simp) h3
  have k4 := addHessWith_sound (g := fun t => t * (l.val * ((saved h a).val ^ ((saved h c).val - 1) * ((saved h c).val * Real.log (saved h a).val + 1)))) (by
    intro t v hv
    simp only [fmul_ok] at hv
    obtain ⟨_, rfl⟩ := hv
    simp) h4
  have t1 : ∀ v, (h₁ v).tlm = (h v).tlm := fun v => addHessWith_tlm h1 v
  have t2 : ∀ v, (h₂ v).tlm = (h v).tlm := fun v => by rw [addHessWith_tlm h2, addHess_tlm', t1]
  have t3 : ∀ v, (h₃ v).tlm = (h v).tlm := fun v => by rw [addHessWith_tlm h3, addHess_tlm', t2]
  rw [k4, k3, eraseKinds_addHess, k2, eraseKinds_addHess, k1]
  simp only [addHess_tlm', t1, t2, t3]
  unfold FBlock.evaluateHessian
  simp only [eraseKinds_hess, hx, Option.map_some, eraseKinds_adj, hl, FBlock.needFloat, saved_eraseKinds, addHess_tlm', eraseKinds_tlm, ofFloat_val, log_val,
    subInt_val, ofInt_val]
  cases hc : (h c).tlm <;> cases ha : (h a).tlm <;> simp [pure, Except.pure, bind, Except.bind, addHess?, hc, ha]

theorem FBlock.kEvaluateHessian_sound (b : FBlock) (m : Bool) (h h' : PHeap) (hr : b.kEvaluateHessian m h = .ok h') :
    b.evaluateHessian m (eraseKinds h) = .ok (eraseKinds h') := by
  cases b with
  | un op a o =>
    cases op with
    | neg =>
      unfold FBlock.kEvaluateHessian at hr
      unfold FBlock.evaluateHessian
      simp only at hr ⊢
      cases hx : (h o).hess with
      | none => rw [hx] at hr; cases hr; simp [hx]
      | some hin =>
        rw [hx] at hr
        simp only [Except.bind_ok, Except.pure_ok, fneg_ok] at hr
        obtain ⟨_, ⟨_, rfl⟩, rfl⟩ := hr
        simp [hx, eraseKinds_addHess]
    | exp =>
      simp only [FBlock.kEvaluateHessian] at hr
      simp only [FBlock.evaluateHessian]
      refine kHessianDefault_sound ?_ hr
      rintro hin adj idx rel v - ⟨⟩
      simp
    | log =>
      simp only [FBlock.kEvaluateHessian] at hr
      simp only [FBlock.evaluateHessian]
      refine kHessianDefault_sound ?_ hr
      intro hin adj idx rel v _ hv
      simp only [Except.bind_ok, div_ok] at hv
      obtain ⟨_, ⟨_, rfl⟩, _, rfl⟩ := hv
      simp
  | bin op a c o =>
    cases op with
    | add =>
      simp only [FBlock.kEvaluateHessian] at hr
      simp only [FBlock.evaluateHessian]
      refine kHessianDefault_sound ?_ hr
      rintro hin adj idx rel v - ⟨⟩
      rfl
    | mul =>
      simp only [FBlock.kEvaluateHessian] at hr
      simp only [FBlock.evaluateHessian]
      refine kHessianDefault_sound ?_ hr
      intro hin adj idx rel v hrel hv
      have := mulHessNum_sound hrel hv
      simpa using this
    | min =>
      simp only [FBlock.kEvaluateHessian] at hr
      simp only [FBlock.evaluateHessian]
      refine kHessianDefault_sound ?_ hr
      intro hin adj idx rel v _ hv
      rw [BOp.adjNum_sound hv]
      simp
    | max =>
      simp only [FBlock.kEvaluateHessian] at hr
      simp only [FBlock.evaluateHessian]
      refine kHessianDefault_sound ?_ hr
      intro hin adj idx rel v _ hv
      rw [BOp.adjNum_sound hv]
      simp
    | sub =>
      unfold FBlock.kEvaluateHessian at hr
      unfold FBlock.evaluateHessian
      simp only at hr ⊢
      cases hx : (h o).hess with
      | none => rw [hx] at hr; cases hr; simp [hx]
      | some hin =>
        rw [hx] at hr
        simp only [Except.bind_ok, Except.pure_ok, fneg_ok] at hr
        obtain ⟨_, ⟨_, rfl⟩, rfl⟩ := hr
        simp [hx, eraseKinds_addHess]
    | div =>
      unfold FBlock.kEvaluateHessian at hr
      simp only at hr
      cases hx : (h o).hess with
      | none => rw [hx] at hr; cases hr; simp [FBlock.evaluateHessian, hx]
      | some hin => rw [hx] at hr; exact kHessianDiv_sound m hx hr
    | pow =>
      unfold FBlock.kEvaluateHessian at hr
      simp only at hr
      cases hx : (h o).hess with
      | none => rw [hx] at hr; cases hr; simp [FBlock.evaluateHessian, hx]
      | some hin => rw [hx] at hr; exact kHessianPow_sound m hx hr

/-- **What `compute_hessian` returns is right**: whatever types the values and the directions have, if it returns then it
returns what C06 is about. -/
theorem hessian_returned (t : FTape) (J : BV) (cs : List BV) (ds : List PyNum) (h h' : PHeap) (r : List ℝ)
    (hr : kComputeHessian t J cs ds h = .ok (r, h')) :
    t.computeHessian J cs (ds.map PyNum.val) (eraseKinds h) = .ok (r, eraseKinds h') := by
  unfold kComputeHessian at hr
  simp only [Except.bind_ok, Except.pure_ok, Prod.mk.injEq] at hr
  obtain ⟨h₁, h1, h₂, h2, rfl, rfl⟩ := hr
  have k1 := tangent_stored t true _ _ h1
  have k2 := foldlM_ok_sound _ (g := fun h b => b.evaluateHessian true h) (fun g g' b _ hg => b.kEvaluateHessian_sound true g g' hg) _ _ h2
  rw [shape_nodes, eraseKinds_markAll, eraseKinds_seedTlm, eraseKinds_reset, eraseKinds_reset] at k1
  rw [shape_nodes, eraseKinds_markAll, eraseKinds_update] at k2
  have e : eraseKinds (markAll (findRelevantNodes t.blocks cs) false h₁) = markAll (findRelevantNodes t.blocks cs) false
      (t.evaluateTlm true (markAll (findRelevantNodes t.blocks cs) true
        (seedTlm cs (ds.map PyNum.val) (resetVariables t.blocks .hessian (resetVariables t.blocks .tlm (eraseKinds h)))))) := by
    rw [eraseKinds_markAll, k1]
  unfold FTape.computeHessian FTape.evaluateHessian
  simp only
  rw [← e]
  have k2' : List.foldlM (fun h b => b.evaluateHessian true h) (markAll (findRelevantNodes t.blocks cs) true
      (Function.update (eraseKinds (markAll (findRelevantNodes t.blocks cs) false h₁)) J
        { eraseKinds (markAll (findRelevantNodes t.blocks cs) false h₁) J with hess := some 0 })) t.reverse = .ok (eraseKinds h₂) := k2
  rw [k2']
  simp only [shape_nodes, eraseKinds_markAll, Except.ok.injEq, Prod.mk.injEq, and_true]
  apply List.map_congr_left
  intro c _
  rw [← eraseKinds_markAll]
  unfold getHessian
  rw [eraseKinds_hess]
  generalize ((markAll _ false h₂) c).hess = x
  cases x <;> rfl

end Pyadjoint
