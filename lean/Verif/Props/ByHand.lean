import Verif.Model.ByHand
import Verif.Props.Tangent
import Verif.Props.Pruning
import Verif.Props.Optimize
import Verif.Proofs.SessionRun

/-!
# C80: sweeps driven by hand

The documentation tells users to put a value into `adj_value` of a result, call `tape.evaluate_adj()` and read
`adj_value` of the inputs, and likewise for tangents.  Right on a tape without leftovers, in particular after
`tape.reset_variables()`; several results can be seeded at once; `last_block` gives the sensitivities to the values in
the middle of the program.  Without a reset the leftovers of earlier computations are propagated and added.
-/

namespace Pyadjoint

section
variable {V T A : Type*} [AddCommMonoid A]

theorem getD_accum (o x : Option A) : (accum o x).getD 0 = o.getD 0 + x.getD 0 := by
  cases o <;> cases x <;> simp [accum]

theorem getD_foldl_accum {α : Type*} (l : List α) (c : α → Option A) (o : Option A) :
    (l.foldl (fun o p => accum o (c p)) o).getD 0 = o.getD 0 + (l.map fun p => (c p).getD 0).sum := by
  induction l generalizing o with
  | nil => simp
  | cons p l ih => rw [List.foldl_cons, ih, getD_accum, List.map_cons, List.sum_cons, add_assoc]

/-- What a block sends to dependency `i` (a missing value counts as zero). -/
def Block.sent (b : Block V T A) (inputs : List V) (x : List (Option A)) (i : Nat) : A :=
  if x.all Option.isNone then 0 else (b.adjC inputs x i).getD 0

/-- Specification of a block whose adjoint components are additive in the incoming values, a missing value counting as
zero. -/
def AdditiveAdj (b : Block V T A) : Prop :=
  ∀ (inputs : List V) (x y z : BV → Option A) (i : Nat),
    (∀ o ∈ b.outs, (z o).getD 0 = (x o).getD 0 + (y o).getD 0) →
    b.sent inputs (b.outs.map z) i = b.sent inputs (b.outs.map x) i + b.sent inputs (b.outs.map y) i

theorem Block.getD_adjAfter (b : Block V T A) (m : Bool) (h : Heap V T A) (v : BV) :
    (b.adjAfter m h v).getD 0 = (h v).adj.getD 0 +
      if (h v).marked || !m then ((entries b.deps v).map fun p =>
        b.sent (b.deps.map (saved h)) (b.outs.map fun o => (h o).adj) p.2).sum else 0 := by
  unfold Block.adjAfter Block.sent
  split
  · rename_i hn
    simp
  · rename_i hn
    split
    · rw [getD_foldl_accum]
    · simp

/-- Superposition: sweeps over heaps that differ in adjoint values only. -/
theorem evaluateAdj_superposition (bs : Blocks V T A) (hadd : ∀ b ∈ bs, AdditiveAdj b) (m : Bool)
    (h₁ h₂ h₃ : Heap V T A) (S : BV → Prop) (hS : ∀ b ∈ bs, ∀ o ∈ b.outs, S o)
    (hs : ∀ v, saved h₁ v = saved h₃ v ∧ saved h₂ v = saved h₃ v)
    (hm : ∀ v, ((h₁ v).marked || !m) = ((h₃ v).marked || !m) ∧ ((h₂ v).marked || !m) = ((h₃ v).marked || !m))
    (ha : ∀ v, S v → (h₃ v).adj.getD 0 = (h₁ v).adj.getD 0 + (h₂ v).adj.getD 0) :
    ∀ v, S v → (evaluateAdj bs m h₃ v).adj.getD 0
      = (evaluateAdj bs m h₁ v).adj.getD 0 + (evaluateAdj bs m h₂ v).adj.getD 0 := by
  induction bs with
  | nil => exact ha
  | cons b bs ih =>
    have ih := ih (fun b' hb' => hadd b' (by simp [hb'])) (fun b' hb' => hS b' (by simp [hb']))
    intro v hv
    simp only [evaluateAdj_cons, Block.evaluateAdj_apply]
    rw [Block.getD_adjAfter, Block.getD_adjAfter, Block.getD_adjAfter, ih v hv]
    have e1 : b.deps.map (saved (evaluateAdj bs m h₁)) = b.deps.map (saved h₃) :=
      List.map_congr_left fun w _ => by rw [saved_evaluateAdj, (hs w).1]
    have e2 : b.deps.map (saved (evaluateAdj bs m h₂)) = b.deps.map (saved h₃) :=
      List.map_congr_left fun w _ => by rw [saved_evaluateAdj, (hs w).2]
    have e3 : b.deps.map (saved (evaluateAdj bs m h₃)) = b.deps.map (saved h₃) :=
      List.map_congr_left fun w _ => by rw [saved_evaluateAdj]
    have k : ∀ h : Heap V T A, (evaluateAdj bs m h v).marked = (h v).marked := fun h => by
      obtain ⟨a, e⟩ := evaluateAdj_frame bs m h v
      rw [e]
    rw [e1, e2, e3, k, k, k, (hm v).1, (hm v).2]
    split
    · have hb := hadd b (by simp)
      rw [List.map_congr_left fun p _ => hb (b.deps.map (saved h₃)) (fun o => (evaluateAdj bs m h₁ o).adj)
        (fun o => (evaluateAdj bs m h₂ o).adj) (fun o => (evaluateAdj bs m h₃ o).adj) p.2
        (fun o ho => ih o (hS b (by simp) o ho)), List.sum_map_add]
      abel
    · simp

end

/-- An `AdjFloat` operation multiplies the incoming adjoint value by a number that does not depend on it. -/
theorem FBlock.sent_factor (b : FBlock) (inputs : List ℝ) (i : Nat) :
    ∃ d : ℝ, ∀ x : Option ℝ, b.toBlock.sent inputs [x] i = x.getD 0 * d := by
  cases b with
  | un op a o =>
    cases hi : inputs[0]? with
    | none => exact ⟨0, fun x => by cases x <;> simp [Block.sent, FBlock.toBlock, hi]⟩
    | some u =>
      cases op with
      | neg => exact ⟨-1, fun x => by cases x <;> simp [Block.sent, FBlock.toBlock, hi, UOp.adjC]⟩
      | exp => exact ⟨Real.exp u, fun x => by cases x <;> simp [Block.sent, FBlock.toBlock, hi, UOp.adjC, mul_comm]⟩
      | log => exact ⟨u⁻¹, fun x => by cases x <;> simp [Block.sent, FBlock.toBlock, hi, UOp.adjC, div_eq_mul_inv]⟩
  | bin op a c o =>
    cases hi : inputs[0]? with
    | none => exact ⟨0, fun x => by cases x <;> simp [Block.sent, FBlock.toBlock, hi]⟩
    | some u =>
      cases hj : inputs[1]? with
      | none => exact ⟨0, fun x => by cases x <;> simp [Block.sent, FBlock.toBlock, hi, hj]⟩
      | some w =>
        refine ⟨op.adjC u w 1 i, fun x => ?_⟩
        have : ∀ l, op.adjC u w l i = l * op.adjC u w 1 i := by
          intro l
          cases op <;> simp only [BOp.adjC] <;> (repeat' split) <;> ring
        cases x with
        | none => simp [Block.sent]
        | some l => simp [Block.sent, FBlock.toBlock, hi, hj, this l]

theorem FBlock.additive (b : FBlock) : AdditiveAdj b.toBlock := by
  intro inputs x y z i hz
  have ho : b.toBlock.outs = [b.out] := by cases b <;> rfl
  have hz := hz b.out (by rw [ho]; simp)
  obtain ⟨d, hd⟩ := b.sent_factor inputs i
  rw [ho]
  simp only [List.map_cons, List.map_nil, hd, hz]
  ring

namespace Hand

theorem evaluateAdjFrom_eq {V T A : Type*} [Add A] (bs : Blocks V T A) (last : Nat) (h : Heap V T A) :
    evaluateAdjFrom bs last h = evaluateAdj (bs.drop last) false h := rfl

/-- Calls that only concern derivatives. -/
def Op.derivativeOnly : Op → Bool
  | .evaluate _ _ => false
  | _ => true

theorem run_append (t : FTape) (p q : List Op) (h : FHeap) : run t (p ++ q) h = run t q (run t p h) := by
  simp [run, List.foldl_append]

/-- No call leaves a control flag. -/
theorem Op.run_flags {t : FTape} (wf : WF t.blocks) (op : Op) (h : FHeap) (hfl : ∀ v, (h v).isControl = false) :
    ∀ v, (op.run t h v).isControl = false := by
  intro v
  have hup : ∀ (w : BV) (x : Var ℝ ℝ ℝ), x.isControl = false → (Function.update h w x v).isControl = false := by
    intro w x hx
    by_cases hv : v = w
    · subst hv; simpa using hx
    · rw [Function.update_of_ne hv]; exact hfl v
  cases op with
  | setAdj w a => exact hup w _ (hfl w)
  | setTlm w a => exact hup w _ (hfl w)
  | sweepAdj last =>
    obtain ⟨a, e⟩ := evaluateAdj_frame (t.blocks.drop last) false h v
    show (evaluateAdjFrom t.blocks last h v).isControl = false
    rw [evaluateAdjFrom_eq, e]; exact hfl v
  | sweepTlm =>
    obtain ⟨a, e⟩ := FTape.evaluateTlm_frame t false h v (FTape.WF_self wf)
    show (t.evaluateTlm false h v).isControl = false
    rw [e]; exact hfl v
  | resetAdj =>
    show (resetVariables t.blocks .adjoint h v).isControl = false
    rw [resetVariables_apply]
    split
    · exact hfl v
    · exact hfl v
  | resetTlm =>
    show (resetVariables t.blocks .tlm h v).isControl = false
    rw [resetVariables_apply]
    split
    · exact hfl v
    · exact hfl v
  | gradient J cs seed =>
    show (computeGradientState t.blocks J cs seed h v).isControl = false
    rw [(computeGradientState_frame t.blocks J cs seed h v).2.2]
    split
    · rfl
    · exact hfl v
  | evaluate cs xs =>
    obtain ⟨k, e⟩ := rfEval_frame t.blocks cs xs h v (fun c _ => hfl c)
    show (rfEval t.blocks cs xs h v).isControl = false
    rw [e]; exact hfl v

theorem run_flags {t : FTape} (wf : WF t.blocks) (ops : List Op) (h : FHeap) (hfl : ∀ v, (h v).isControl = false) :
    ∀ v, (run t ops h v).isControl = false := by
  induction ops generalizing h with
  | nil => exact hfl
  | cons op ops ih => exact ih _ (op.run_flags wf h hfl)

/-- Derivative computations leave the values alone. -/
theorem Op.run_saved {t : FTape} (wf : WF t.blocks) (op : Op) (hop : op.derivativeOnly = true) (h : FHeap) :
    ∀ v, saved (op.run t h) v = saved h v := by
  intro v
  have hup : ∀ (w : BV) (x : Var ℝ ℝ ℝ), x.output = (h w).output → x.ckpt = (h w).ckpt →
      saved (Function.update h w x) v = saved h v := by
    intro w x h1 h2
    apply saved_congr
    · by_cases hv : v = w
      · subst hv; simpa using h1
      · rw [Function.update_of_ne hv]
    · by_cases hv : v = w
      · subst hv; simpa using h2
      · rw [Function.update_of_ne hv]
  cases op with
  | setAdj w a => exact hup w _ rfl rfl
  | setTlm w a => exact hup w _ rfl rfl
  | sweepAdj last => exact saved_evaluateAdj (t.blocks.drop last) false h v
  | sweepTlm =>
    obtain ⟨a, e⟩ := FTape.evaluateTlm_frame t false h v (FTape.WF_self wf)
    show saved (t.evaluateTlm false h) v = _
    exact saved_congr (by rw [e]) (by rw [e])
  | resetAdj => exact saved_resetVariables t.blocks _ h v
  | resetTlm => exact saved_resetVariables t.blocks _ h v
  | gradient J cs seed =>
    have := computeGradientState_frame t.blocks J cs seed h v
    exact saved_congr this.1 this.2.1
  | evaluate cs xs => cases hop

theorem run_saved {t : FTape} (wf : WF t.blocks) (ops : List Op) (hops : ∀ op ∈ ops, op.derivativeOnly = true) (h : FHeap) :
    ∀ v, saved (run t ops h) v = saved h v := by
  induction ops generalizing h with
  | nil => intro v; rfl
  | cons op ops ih =>
    intro v
    exact (ih (fun o ho => hops o (by simp [ho])) _ v).trans (op.run_saved wf (hops op (by simp)) h v)

/-- The documented recipe for gradients (`pyadjoint_docs.rst:408-414`) on a tape: seed, sweep. -/
def recipe (J : BV) (w : ℝ) : List Op := [.setAdj J (some w), .sweepAdj 0]

/-- The documented recipe for tangents (`pyadjoint_docs.rst:398-404`), for any number of inputs. -/
def tangentRecipe (cs : List BV) (ds : List ℝ) : List Op :=
  (cs.zip ds).map (fun p => .setTlm p.1 (some p.2)) ++ [.sweepTlm]

theorem drop_blocks (t : FTape) (k : Nat) : t.blocks.drop k = FTape.blocks (t.drop k) := by
  simp [FTape.blocks, List.map_drop]

/-- The value of `v` when the blocks from number `k` on are run again with the values `x` for the variables `vs`, the
other values taken from `h`: the rest of the program as a function of `vs`. -/
noncomputable def restOfProgram (t : FTape) (k : Nat) (vs : List BV) (h : FHeap) (v : BV) (x : Fin vs.length → ℝ) : ℝ :=
  saved (rfEval (FTape.blocks (t.drop k)) vs (List.ofFn x) h) v

/-- Seeding and sweeping the blocks from `k` on, in a state whose values are those of the rest of the program at `x₀`
and that has no adjoint values. -/
theorem sweep_exact (t : FTape) (wf : WF t.blocks) (k : Nat) (J : BV) (vs : List BV) (hnd : vs.Nodup) (h : FHeap)
    (hfl : ∀ v, (h v).isControl = false) (hind : IndependentControls (FTape.blocks (t.drop k)) vs) (w : ℝ)
    (x₀ : Fin vs.length → ℝ)
    (hsmooth : ∀ b ∈ t.drop k, (∃ d ∈ b.deps, Reach (FTape.blocks (t.drop k)) (· ∈ vs) d) →
      b.Smooth (saved (rfEval (FTape.blocks (t.drop k)) vs (List.ofFn x₀) h)) (Reach (FTape.blocks (t.drop k)) (· ∈ vs)))
    (g : FHeap) (hg : ∀ v, saved g v = saved (rfEval (FTape.blocks (t.drop k)) vs (List.ofFn x₀) h) v)
    (hclean : ∀ v, (OnTape t.blocks v ∨ v ∈ vs) → (g v).adj = none) :
    HasFDerivAt (fun x => w * restOfProgram t k vs h J x)
      (∑ i : Fin vs.length, ((run t [.setAdj J (some w), .sweepAdj k] g vs[i]).adj.getD 0) •
        (ContinuousLinearMap.proj i : (Fin vs.length → ℝ) →L[ℝ] ℝ)) x₀ := by
  have wfk : WF (FTape.blocks (t.drop k)) := by
    rw [← drop_blocks]
    have := wf
    rw [← List.take_append_drop k t.blocks] at this
    exact this.append.2
  have key := gradient_exact_aux wfk J vs hnd h hfl x₀ mulFunctional w
    (fun b hb hd o ho hc => by
      obtain ⟨d, hd, hr⟩ := hd
      exact hind o hc b hb ho d hd hr)
    (by
      intro b hb hdep
      obtain ⟨fb, hfb, rfl⟩ := List.mem_map.1 hb
      apply FBlock.correctAdjoint fb
      apply hsmooth fb hfb
      cases fb <;> exact hdep) g hg
    (fun c hc => Or.inr (Or.inr (hclean c (Or.inr hc))))
  have same : ∀ c ∈ vs, getDerivative (computeGradientState (FTape.blocks (t.drop k)) J vs w g) c
      = (run t [.setAdj J (some w), .sweepAdj k] g c).adj.getD 0 := by
    intro c hc
    have e : (computeGradientState (FTape.blocks (t.drop k)) J vs w g c).adj
        = (run t [.setAdj J (some w), .sweepAdj k] g c).adj := by
      rw [pruned_gradient_eq_full wfk J vs w g c hc]
      show _ = (evaluateAdjFrom t.blocks k (Function.update g J { g J with adj := some w }) c).adj
      rw [evaluateAdjFrom_eq, drop_blocks]
      unfold fullAdjoint
      refine evaluateAdj_sim (FTape.blocks (t.drop k)) (fun v => OnTape t.blocks v ∨ v ∈ vs) ?_ false false _ _
        (by simp) (by simp) ?_ ?_ c (Or.inr hc)
      · intro b hb _ o ho
        rw [← drop_blocks] at hb
        exact Or.inl ⟨b, List.mem_of_mem_drop hb, Or.inr ho⟩
      · intro v hv
        by_cases hJ : v = J
        · subst hJ; simp
        · rw [Function.update_of_ne hJ, Function.update_of_ne hJ, resetVariables_apply, hclean v hv]
          split
          · rfl
          · exact hclean v hv
      · intro v
        rw [saved_update_adj, saved_update_adj, saved_resetVariables]
    unfold getDerivative
    rw [e]
    cases (run t [.setAdj J (some w), .sweepAdj k] g c).adj <;> rfl
  have hfun : (fun x : Fin vs.length → ℝ => w * restOfProgram t k vs h J x)
      = fun x => mulFunctional w (replayVal (FTape.blocks (t.drop k)) vs h x J) := by
    funext x
    simp [restOfProgram, replayVal]
  rw [hfun]
  refine key.congr_fderiv ?_
  ext x
  simp only [sum_apply, ContinuousLinearMap.comp_apply, mulFunctional_apply, smul_apply,
    smul_eq_mul]
  refine Finset.sum_congr rfl fun i _ => ?_
  rw [same vs[i] (List.getElem_mem _)]

/-- **C80 for gradients** (partial: the reset is not in the documented recipe).  After `rf(x₀)` and any derivative computations, by hand or by the drivers, `tape.reset_variables()`,
the seed `w` in `J`'s `adj_value` and `tape.evaluate_adj()`: the `adj_value`s of the controls are the components of the
Fréchet derivative of `w · J`, whatever was done before. -/
theorem gradient_by_hand_partial (t : FTape) (wf : WF t.blocks) (J : BV) (cs : List BV) (hnd : cs.Nodup) (h : FHeap)
    (hfl : ∀ v, (h v).isControl = false) (hind : IndependentControls t.blocks cs) (hon : ∀ c ∈ cs, OnTape t.blocks c)
    (before between : List Op) (hbetween : ∀ op ∈ between, op.derivativeOnly = true) (w : ℝ) (x₀ : Fin cs.length → ℝ)
    (hsmooth : ∀ b ∈ t, (∃ d ∈ b.deps, Reach t.blocks (· ∈ cs) d) →
      b.Smooth (saved (rfEval t.blocks cs (List.ofFn x₀) (run t before h))) (Reach t.blocks (· ∈ cs))) :
    HasFDerivAt (fun x : Fin cs.length → ℝ => w * saved (rfEval t.blocks cs (List.ofFn x) (run t before h)) J)
      (∑ i : Fin cs.length, ((run t (before ++ .evaluate cs (List.ofFn x₀) :: between ++ .resetAdj :: recipe J w) h cs[i]).adj.getD 0) •
        (ContinuousLinearMap.proj i : (Fin cs.length → ℝ) →L[ℝ] ℝ)) x₀ := by
  have e : run t (before ++ .evaluate cs (List.ofFn x₀) :: between ++ .resetAdj :: recipe J w) h
      = run t [.setAdj J (some w), .sweepAdj 0] (resetVariables t.blocks .adjoint
          (run t between (rfEval t.blocks cs (List.ofFn x₀) (run t before h)))) := by
    rw [run_append, run_append]; rfl
  rw [e]
  refine sweep_exact t wf 0 J cs hnd (run t before h) (run_flags wf before h hfl) hind w x₀ hsmooth _ ?_ ?_
  · intro v
    rw [saved_resetVariables, run_saved wf between hbetween]
    rfl
  · intro v hv
    have : OnTape t.blocks v := by
      rcases hv with hv | hv
      · exact hv
      · exact hon v hv
    rw [resetVariables_apply, if_pos this]
    rfl

/-- **C80 for gradients on a fresh tape.** Without a reset the recipe is right if no variable of the tape carries an adjoint
value: right after recording, and after `rf(x₀)` if no adjoint was computed before. -/
theorem gradient_by_hand_fresh (t : FTape) (wf : WF t.blocks) (J : BV) (cs : List BV) (hnd : cs.Nodup) (h : FHeap)
    (hfl : ∀ v, (h v).isControl = false) (hind : IndependentControls t.blocks cs) (hon : ∀ c ∈ cs, OnTape t.blocks c)
    (hfresh : ∀ v, OnTape t.blocks v → (h v).adj = none) (w : ℝ) (x₀ : Fin cs.length → ℝ)
    (hsmooth : ∀ b ∈ t, (∃ d ∈ b.deps, Reach t.blocks (· ∈ cs) d) →
      b.Smooth (saved (rfEval t.blocks cs (List.ofFn x₀) h)) (Reach t.blocks (· ∈ cs))) :
    HasFDerivAt (fun x : Fin cs.length → ℝ => w * saved (rfEval t.blocks cs (List.ofFn x) h) J)
      (∑ i : Fin cs.length, ((run t (.evaluate cs (List.ofFn x₀) :: recipe J w) h cs[i]).adj.getD 0) •
        (ContinuousLinearMap.proj i : (Fin cs.length → ℝ) →L[ℝ] ℝ)) x₀ := by
  refine sweep_exact t wf 0 J cs hnd h hfl hind w x₀ hsmooth (rfEval t.blocks cs (List.ofFn x₀) h) (fun v => rfl) ?_
  intro v hv
  have hv : OnTape t.blocks v := by
    rcases hv with hv | hv
    · exact hv
    · exact hon v hv
  obtain ⟨k, e⟩ := rfEval_frame t.blocks cs (List.ofFn x₀) h v (fun c _ => hfl c)
  rw [e]; exact hfresh v hv

/-- In a state whose values were computed by the tape, running the rest of the program again with the values that are
there changes nothing. -/
theorem rest_of_program_consistent {t : FTape} (wf : WF t.blocks) (k : Nat) (cs : List BV) (xs : List ℝ) (h : FHeap)
    (hfl : ∀ v, (h v).isControl = false) (hcs : ∀ b ∈ t.drop k, b.out ∉ cs) (vs : List BV) (hnd : vs.Nodup)
    (hvs : ∀ b ∈ t.drop k, b.out ∉ vs) :
    ∀ v, saved (rfEval (FTape.blocks (t.drop k)) vs (vs.map (saved (rfEval t.blocks cs xs h))) (rfEval t.blocks cs xs h)) v
      = saved (rfEval t.blocks cs xs h) v := by
  have hsub : ∀ b ∈ FTape.blocks (t.drop k), b ∈ t.blocks := fun b hb => by
    rw [← drop_blocks] at hb
    exact List.mem_of_mem_drop hb
  have wfk : WF (FTape.blocks (t.drop k)) := by
    rw [← drop_blocks]
    have := wf
    rw [← List.take_append_drop k t.blocks] at this
    exact this.append.2
  have hfl' : ∀ v, (rfEval t.blocks cs xs h v).isControl = false := fun v => by
    obtain ⟨c, e⟩ := rfEval_frame t.blocks cs xs h v (fun c _ => hfl c)
    rw [e]; exact hfl v
  apply tape_induction wfk (P := fun v =>
    saved (rfEval (FTape.blocks (t.drop k)) vs (vs.map (saved (rfEval t.blocks cs xs h))) (rfEval t.blocks cs xs h)) v
      = saved (rfEval t.blocks cs xs h) v)
  · intro v hv
    by_cases hc : v ∈ vs
    · obtain ⟨i, hi, rfl⟩ := List.getElem_of_mem hc
      have := rfEval_control (FTape.blocks (t.drop k)) vs (vs.map (saved (rfEval t.blocks cs xs h)))
        (rfEval t.blocks cs xs h) hnd (by simp) (fun c _ => hfl' c) i hi
      rw [saved_eq_getD, this]
      simp
    · rw [saved, rfEval_leaf _ vs _ _ v hc hv]; rfl
  · intro b hb ih o ho
    obtain ⟨i, hi, rfl⟩ := List.getElem_of_mem ho
    have hno : ∀ l : List BV, (∀ b ∈ t.drop k, b.out ∉ l) → ∀ o ∈ b.outs, o ∉ l := by
      intro l hl o ho
      obtain ⟨fb, hfb, rfl⟩ := List.mem_map.1 hb
      rw [fb.mem_outs] at ho
      rw [ho]
      exact hl fb hfb
    rw [rfEval_saved_block wfk vs _ _ hfl' b hb (hno vs hvs) i hi,
      rfEval_saved_block wf cs xs h hfl b (hsub b hb) (hno cs hcs) i hi]
    rw [List.map_congr_left ih]
    cases hr : b.recomputeC (b.deps.map (saved (rfEval t.blocks cs xs h))) i with
    | none => simp only [Option.getD_none]
    | some y => simp only [Option.getD_some]

/-- **C80 for `last_block`.** After `rf(x)` and any derivative computations, `tape.reset_variables()`, seed and
`tape.evaluate_adj(last_block=k)`: the `adj_value`s of variables that exist before block `k` are the derivatives of the seeded
result by their values, seen as inputs of the rest of the program. -/
theorem last_block_by_hand (t : FTape) (wf : WF t.blocks) (k : Nat) (J : BV) (cs : List BV) (xs : List ℝ) (h : FHeap)
    (hfl : ∀ v, (h v).isControl = false) (hcs : ∀ b ∈ t.drop k, b.out ∉ cs)
    (vs : List BV) (hnd : vs.Nodup) (hvs : ∀ b ∈ t.drop k, b.out ∉ vs) (hon : ∀ v ∈ vs, OnTape t.blocks v)
    (before between : List Op) (hbetween : ∀ op ∈ between, op.derivativeOnly = true) (w : ℝ)
    (hsmooth : ∀ b ∈ t.drop k, (∃ d ∈ b.deps, Reach (FTape.blocks (t.drop k)) (· ∈ vs) d) →
      b.Smooth (saved (rfEval t.blocks cs xs (run t before h))) (Reach (FTape.blocks (t.drop k)) (· ∈ vs))) :
    let h₁ := rfEval t.blocks cs xs (run t before h)
    HasFDerivAt (fun x => w * restOfProgram t k vs h₁ J x)
      (∑ i : Fin vs.length,
        ((run t (before ++ .evaluate cs xs :: between ++ [.resetAdj, .setAdj J (some w), .sweepAdj k]) h vs[i]).adj.getD 0) •
        (ContinuousLinearMap.proj i : (Fin vs.length → ℝ) →L[ℝ] ℝ)) (fun i => saved h₁ vs[i]) := by
  intro h₁
  have e : run t (before ++ .evaluate cs xs :: between ++ [.resetAdj, .setAdj J (some w), .sweepAdj k]) h
      = run t [.setAdj J (some w), .sweepAdj k] (resetVariables t.blocks .adjoint (run t between h₁)) := by
    rw [run_append, run_append]; rfl
  have hpt : List.ofFn (fun i : Fin vs.length => saved h₁ vs[i]) = vs.map (saved h₁) := by
    apply List.ext_getElem <;> simp
  have hcons := rest_of_program_consistent wf k cs xs (run t before h) (run_flags wf before h hfl) hcs vs hnd hvs
  have hfl' : ∀ v, (h₁ v).isControl = false := (Op.evaluate cs xs).run_flags wf _ (run_flags wf before h hfl)
  rw [e]
  refine sweep_exact t wf k J vs hnd h₁ hfl' ?_ w _ ?_ _ ?_ ?_
  · intro c hc b hb ho
    obtain ⟨fb, hfb, rfl⟩ := List.mem_map.1 hb
    rw [fb.mem_outs] at ho
    exact absurd (ho ▸ hc) (hvs fb hfb)
  · rw [hpt]
    intro b hb hd
    have : saved (rfEval (FTape.blocks (t.drop k)) vs (vs.map (saved h₁)) h₁) = saved h₁ := funext hcons
    rw [this]
    exact hsmooth b hb hd
  · intro v
    rw [hpt, saved_resetVariables, run_saved wf between hbetween]
    exact (hcons v).symm
  · intro v hv
    have hv : OnTape t.blocks v := by
      rcases hv with hv | hv
      · exact hv
      · exact hon v hv
    rw [resetVariables_apply, if_pos hv]
    rfl

/-- **C80, leftovers.** In any state, what the recipe leaves on a variable of the tape is what it would have left after a
reset, plus what the adjoint values left by earlier computations are worth there. -/
theorem recipe_adds_leftovers (t : FTape) (J : BV) (w : ℝ) (h : FHeap) (v : BV) (hv : OnTape t.blocks v ∨ v = J) :
    (run t (recipe J w) h v).adj.getD 0
      = (run t (.resetAdj :: recipe J w) h v).adj.getD 0 + (run t [.setAdj J none, .sweepAdj 0] h v).adj.getD 0 := by
  refine evaluateAdj_superposition t.blocks ?_ false _ _ _ (fun v => OnTape t.blocks v ∨ v = J) ?_ ?_ ?_ ?_ v hv
  · intro b hb
    obtain ⟨fb, _, rfl⟩ := List.mem_map.1 hb
    exact fb.additive
  · exact fun b hb o ho => Or.inl ⟨b, hb, Or.inr ho⟩
  · intro v
    exact ⟨(saved_update_adj _ _ _ _).trans ((saved_resetVariables _ _ _ _).trans (saved_update_adj _ _ _ _).symm),
      (saved_update_adj _ _ _ _).trans (saved_update_adj _ _ _ _).symm⟩
  · intro v; simp
  · intro v hv
    show (Function.update h J { h J with adj := some w } v).adj.getD 0
      = (Function.update (resetVariables t.blocks .adjoint h) J _ v).adj.getD 0 + (Function.update h J _ v).adj.getD 0
    by_cases hJ : v = J
    · subst hJ; simp
    · rw [Function.update_of_ne hJ, Function.update_of_ne hJ, Function.update_of_ne hJ, resetVariables_apply,
        if_pos (hv.resolve_right hJ)]
      simp [Var.reset]

theorem run_seeds (t : FTape) (seeds : List (BV × ℝ)) (hnd : (seeds.map Prod.fst).Nodup) (h : FHeap) (v : BV) :
    run t (seeds.map fun p => .setAdj p.1 (some p.2)) h v
      = match seeds.find? (fun p => p.1 = v) with
        | some p => { h v with adj := some p.2 }
        | none => h v := by
  induction seeds generalizing h with
  | nil => rfl
  | cons p l ih =>
    rw [List.map_cons] at hnd ⊢
    have hp := (List.nodup_cons.1 hnd).1
    show run t (l.map fun p => .setAdj p.1 (some p.2)) (Function.update h p.1 { h p.1 with adj := some p.2 }) v = _
    rw [ih (List.nodup_cons.1 hnd).2, List.find?_cons]
    by_cases hv : p.1 = v
    · subst hv
      have : l.find? (fun q => decide (q.1 = p.1)) = none := by
        rw [List.find?_eq_none]
        intro q hq e
        apply hp
        rw [← of_decide_eq_true e]
        exact List.mem_map_of_mem hq
      rw [this]
      simp
    · simp only [hv, decide_false]
      rw [Function.update_of_ne (Ne.symm hv)]

/-- **C80, several results.** Seeding several results of a tape without leftovers at once gives the sum of what seeding them
one by one gives: with `gradient_by_hand_partial`, the derivative of the weighted sum of the results. -/
theorem seeds_add (t : FTape) (seeds : List (BV × ℝ)) (hnd : (seeds.map Prod.fst).Nodup) (h : FHeap) (v : BV)
    (hv : OnTape t.blocks v) :
    (run t (.resetAdj :: seeds.map (fun p => .setAdj p.1 (some p.2)) ++ [.sweepAdj 0]) h v).adj.getD 0
      = (seeds.map fun p => (run t (.resetAdj :: recipe p.1 p.2) h v).adj.getD 0).sum := by
  have hfold : ∀ l : List (BV × ℝ), run t (.resetAdj :: l.map (fun p => .setAdj p.1 (some p.2)) ++ [.sweepAdj 0]) h
      = evaluateAdj t.blocks false (run t (l.map fun p => .setAdj p.1 (some p.2)) (resetVariables t.blocks .adjoint h)) := by
    intro l
    rw [run_append]; rfl
  have hsv : ∀ (l : List (BV × ℝ)) (g : FHeap) (u : BV), saved (run t (l.map fun p => .setAdj p.1 (some p.2)) g) u = saved g u := by
    intro l
    induction l with
    | nil => intro g u; rfl
    | cons p l ih =>
      intro g u
      exact (ih _ u).trans (saved_update_adj g p.1 u (some p.2))
  induction seeds with
  | nil =>
    rw [hfold]
    -- nothing seeded: the sweep of a tape without adjoint values leaves none
    have h0 := evaluateAdj_superposition t.blocks (fun b hb => by
        obtain ⟨fb, _, rfl⟩ := List.mem_map.1 hb
        exact fb.additive) false (resetVariables t.blocks .adjoint h) (resetVariables t.blocks .adjoint h)
      (resetVariables t.blocks .adjoint h) (OnTape t.blocks) (fun b hb o ho => ⟨b, hb, Or.inr ho⟩)
      (fun v => ⟨rfl, rfl⟩) (fun v => ⟨rfl, rfl⟩) (fun v hv => by rw [resetVariables_apply, if_pos hv]; simp [Var.reset]) v hv
    show (evaluateAdj t.blocks false (resetVariables t.blocks .adjoint h) v).adj.getD 0 = 0
    linarith
  | cons p l ih =>
    rw [List.map_cons] at hnd
    have hp := (List.nodup_cons.1 hnd).1
    have ih := ih (List.nodup_cons.1 hnd).2
    rw [hfold] at ih
    rw [hfold]
    show _ = (run t (.resetAdj :: recipe p.1 p.2) h v).adj.getD 0
      + (l.map fun p => (run t (.resetAdj :: recipe p.1 p.2) h v).adj.getD 0).sum
    rw [← ih]
    refine evaluateAdj_superposition t.blocks ?_ false _ _ _ (OnTape t.blocks) ?_ ?_ ?_ ?_ v hv
    · intro b hb
      obtain ⟨fb, _, rfl⟩ := List.mem_map.1 hb
      exact fb.additive
    · exact fun b hb o ho => ⟨b, hb, Or.inr ho⟩
    · intro u
      rw [hsv, hsv]
      exact ⟨saved_update_adj _ _ _ _, rfl⟩
    · intro u; simp
    · intro u hu
      rw [run_seeds t (p :: l) (by simpa using hnd), run_seeds t l (List.nodup_cons.1 hnd).2, List.find?_cons]
      have hr : (resetVariables t.blocks .adjoint h u).adj = none := by
        rw [resetVariables_apply, if_pos hu]; rfl
      by_cases hv : p.1 = u
      · subst hv
        have : l.find? (fun q => decide (q.1 = p.1)) = none := by
          rw [List.find?_eq_none]
          intro q hq e
          apply hp
          rw [← of_decide_eq_true e]
          exact List.mem_map_of_mem hq
        simp [this, hr, Op.run]
      · simp only [hv, decide_false]
        show _ = (Function.update (resetVariables t.blocks .adjoint h) p.1 _ u).adj.getD 0 + _
        rw [Function.update_of_ne (Ne.symm hv), hr]
        simp

/-- Two seeds on the tape `exF`. -/
example : (([(3, 1), (4, 2)] : List (BV × ℝ)).map Prod.fst).Nodup ∧ OnTape exF.blocks 0 :=
  ⟨by simp, ⟨FBlock.toBlock (.bin .mul 0 1 2), by simp [FTape.blocks, exF], by simp [FBlock.toBlock]⟩⟩

theorem run_setTlm (t : FTape) (cs : List BV) (ds : List ℝ) (h : FHeap) :
    run t ((cs.zip ds).map fun p => .setTlm p.1 (some p.2)) h = seedTlm cs ds h := by
  unfold run seedTlm
  rw [List.foldl_map]
  rfl

/-- **C80 for tangents** (partial: the reset is not in the documented recipe).  After `rf(x₀)` and any derivative computations, `tape.reset_tlm_values()`, the direction in the
controls' `tlm_value` and `tape.evaluate_tlm()`: every variable of the tape carries its directional derivative, whatever was
done before. -/
theorem tangent_by_hand_partial (t : FTape) (wf : WF t.blocks) (cs : List BV) (hnd : cs.Nodup) (h : FHeap)
    (hfl : ∀ v, (h v).isControl = false) (hind : IndependentControls t.blocks cs)
    (before between : List Op) (hbetween : ∀ op ∈ between, op.derivativeOnly = true) (x₀ dir : Fin cs.length → ℝ)
    (hsmooth : ∀ b ∈ t, (∃ d ∈ b.deps, Reach t.blocks (· ∈ cs) d) →
      b.Smooth (saved (rfEval t.blocks cs (List.ofFn x₀) (run t before h))) (Reach t.blocks (· ∈ cs)))
    (v : BV) (hv : OnTape t.blocks v) :
    HasDerivAt (fun s : ℝ => saved (rfEval t.blocks cs (List.ofFn (x₀ + s • dir)) (run t before h)) v)
      ((run t (before ++ .evaluate cs (List.ofFn x₀) :: between ++ .resetTlm :: tangentRecipe cs (List.ofFn dir)) h v).tlm.getD 0) 0 := by
  have e : run t (before ++ .evaluate cs (List.ofFn x₀) :: between ++ .resetTlm :: tangentRecipe cs (List.ofFn dir)) h
      = t.evaluateTlm false (seedTlm cs (List.ofFn dir) (resetVariables t.blocks .tlm
          (run t between (rfEval t.blocks cs (List.ofFn x₀) (run t before h))))) := by
    rw [run_append, run_append, ← run_setTlm t]
    unfold tangentRecipe
    rw [← List.cons_append, run_append]
    rfl
  rw [e]
  have hfl' := run_flags wf before h hfl
  have hsv := run_saved wf between hbetween (rfEval t.blocks cs (List.ofFn x₀) (run t before h))
  generalize run t between (rfEval t.blocks cs (List.ofFn x₀) (run t before h)) = g at hsv
  generalize run t before h = h₀ at *
  have hind' : ∀ b ∈ t, (∃ d ∈ b.deps, Reach t.blocks (· ∈ cs) d) → b.out ∉ cs := by
    intro b hb ⟨d, hd, hr⟩ hc
    exact hind b.out hc b.toBlock (List.mem_map.2 ⟨b, hb, rfl⟩) ((b.mem_outs _).2 rfl) d
      (by rw [b.toBlock_deps]; exact hd) hr
  obtain ⟨D, hD, hD0, hDc, hDb⟩ := FTape.deriv wf cs hnd h₀ hfl' x₀ hind' hsmooth
  have key := FTape.tlm_exact_aux wf cs (saved (rfEval t.blocks cs (List.ofFn x₀) h₀)) (fun v => D v dir) (fun v => D v dir)
    (by intro v hv; simp [hD0 v hv]) (fun c hc => rfl)
    (by
      intro b hb hd
      have e := hDb b hb hd
      cases b <;> simp [e, FBlock.lin])
    hind' false (seedTlm cs (List.ofFn dir) (resetVariables t.blocks .tlm g))
    (by intro v; simp [hsv]) (by simp)
    (by
      intro c hc
      obtain ⟨i, hi, rfl⟩ := List.getElem_of_mem hc
      rw [seedTlm_tlm _ _ _ hnd (by simp) i hi]
      have := hDc ⟨i, hi⟩
      simp only [Fin.getElem_fin] at this
      rw [this]; simp)
    (by
      intro w hw hc
      rw [seedTlm_of_not_mem _ _ _ _ hc, resetVariables_apply, if_pos hw]
      rfl) v (Or.inl hv)
  have hline : HasDerivAt (fun s : ℝ => x₀ + s • dir) dir 0 := by
    simpa using ((hasDerivAt_id (0 : ℝ)).smul_const dir).const_add x₀
  have := (hD v)
  have e0 : x₀ + (0 : ℝ) • dir = x₀ := by simp
  rw [← e0] at this
  have := this.comp_hasDerivAt (0 : ℝ) hline
  rw [key.1]
  exact this

/-- The hypotheses hold for `exF` (`v₄ = exp (v₀ * v₁) + v₀`) with the controls `v₀`, `v₁`, at every point and after every
sequence of calls; see also the example after `gradient_exact_adjfloat`. -/
example (before : List Op) (x₀ : Fin 2 → ℝ) : WF exF.blocks ∧ IndependentControls exF.blocks [0, 1] ∧
    (∀ c ∈ [0, 1], OnTape exF.blocks c) ∧ OnTape exF.blocks 4 ∧ (∀ v, OnTape exF.blocks v → (exFHeap v).adj = none) ∧
    (∀ b ∈ exF, (∃ d ∈ b.deps, Reach exF.blocks (· ∈ [0, 1]) d) →
      b.Smooth (saved (rfEval exF.blocks [0, 1] (List.ofFn x₀) (run exF before exFHeap))) (Reach exF.blocks (· ∈ [0, 1]))) ∧
    -- from the second block on, as a function of `v₂` and `v₀`
    (∀ b ∈ exF.drop 1, b.out ∉ [2, 0]) ∧ (∀ b ∈ exF.drop 1, b.out ∉ [0, 1]) ∧
    (∀ b ∈ exF.drop 1, (∃ d ∈ b.deps, Reach (FTape.blocks (exF.drop 1)) (· ∈ [2, 0]) d) →
      b.Smooth (saved (rfEval exF.blocks [0, 1] (List.ofFn x₀) (run exF before exFHeap)))
        (Reach (FTape.blocks (exF.drop 1)) (· ∈ [2, 0]))) := by
  have hon : ∀ c ∈ [0, 1], OnTape exF.blocks c := by
    intro c hc
    refine ⟨FBlock.toBlock (.bin .mul 0 1 2), by simp [FTape.blocks, exF], Or.inl ?_⟩
    simpa [FBlock.toBlock] using hc
  refine ⟨exF_wf, exF_independent, hon,
    ⟨FBlock.toBlock (.bin .add 3 0 4), by simp [FTape.blocks, exF], by simp [FBlock.toBlock]⟩, fun _ _ => rfl, ?_,
    by decide, by decide, ?_⟩
  · intro b hb _
    simp only [exF, List.mem_cons, List.not_mem_nil, or_false] at hb
    rcases hb with rfl | rfl | rfl <;> trivial
  · intro b hb _
    simp only [exF, List.drop_succ_cons, List.drop_zero, List.mem_cons, List.not_mem_nil, or_false] at hb
    rcases hb with rfl | rfl <;> trivial

/-- `y = x + x` (example data). -/
def exTwice : FTape := [.bin .add 0 0 1]

/-- **C80 is false of the documented recipes as they stand.** For `y = x + x`, whose derivative is `2` everywhere: following
the recipe for gradients a second time, or after `compute_gradient`, gives `4`; following the recipe for tangents a second
time gives `4`.  Nothing in the recipes resets the values the first sweep left. -/
theorem recipes_accumulate (h : FHeap) (hfresh : ∀ v, (h v).adj = none ∧ (h v).tlm = none) :
    (run exTwice (recipe 1 1) h 0).adj = some 2 ∧
    (run exTwice (recipe 1 1 ++ recipe 1 1) h 0).adj = some 4 ∧
    (run exTwice (.gradient 1 [0] 1 :: recipe 1 1) h 0).adj = some 4 ∧
    (run exTwice (recipe 1 1 ++ .resetAdj :: recipe 1 1) h 0).adj = some 2 ∧
    (run exTwice (tangentRecipe [0] [1]) h 1).tlm = some 2 ∧
    (run exTwice (tangentRecipe [0] [1] ++ tangentRecipe [0] [1]) h 1).tlm = some 4 := by
  have ha := fun v => (hfresh v).1
  have ht := fun v => (hfresh v).2
  refine ⟨?_, ?_, ?_, ?_, ?_, ?_⟩
  · simp [run, recipe, Op.run, evaluateAdjFrom, exTwice, FTape.blocks, FBlock.toBlock, Block.evaluateAdj, relevant, addAdj?,
      addAdj, saved, BOp.adjC, ha]
    norm_num
  · simp [run, recipe, Op.run, evaluateAdjFrom, exTwice, FTape.blocks, FBlock.toBlock, Block.evaluateAdj, relevant, addAdj?,
      addAdj, saved, BOp.adjC, ha]
    norm_num
  · simp [run, recipe, Op.run, evaluateAdjFrom, exTwice, FTape.blocks, FBlock.toBlock, Block.evaluateAdj, relevant, addAdj?,
      addAdj, saved, BOp.adjC, computeGradient, computeGradientState, markedAdjoint, findRelevantNodes, markAll, markControls,
      Pyadjoint.evaluateAdj, resetVariables, Block.resetVariables, Var.reset]
    norm_num
  · simp [run, recipe, Op.run, evaluateAdjFrom, exTwice, FTape.blocks, FBlock.toBlock, Block.evaluateAdj, relevant, addAdj?,
      addAdj, saved, BOp.adjC, ha, resetVariables, Block.resetVariables, Var.reset]
    norm_num
  · simp [run, tangentRecipe, Op.run, exTwice, FTape.evaluateTlm, FBlock.evaluateTlm, FBlock.toBlock, Block.evaluateTlm, relevant, addTlm?,
      addTlm, BOp.tlmC, ht]
    norm_num
  · simp [run, tangentRecipe, Op.run, exTwice, FTape.evaluateTlm, FBlock.evaluateTlm, FBlock.toBlock, Block.evaluateTlm, relevant, addTlm?,
      addTlm, BOp.tlmC, ht]
    norm_num

end Hand

end Pyadjoint
