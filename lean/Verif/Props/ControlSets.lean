import Verif.Props.Pruning
import Verif.Props.CrashHess
import Verif.Props.Optimize
import Verif.Props.Hessian

/-!
# C86: what a reduced functional says about a control does not depend on its other controls

Two reduced functionals of the same functional on one tape, with different controls: another order, or further controls that are given the
values they have anyway.
-/

namespace Pyadjoint

variable {V T A : Type*}

/-! ## Specification -/

/-- The value an evaluation gives to a variable, if it gives it one; if a control occurs twice the last value counts. -/
def given (cs : List BV) (xs : List V) (v : BV) : Option V :=
  (cs.zip xs).foldl (fun acc p => if p.1 = v then some p.2 else acc) none

/-- Two evaluations that give every variable the same value, where a variable that is not given one keeps the one it has; and the same
computed variables are controls in both. -/
structure SameInputs (bs : Blocks V T A) (h : Heap V T A) (cs : List BV) (xs : List V) (cs' : List BV) (xs' : List V) : Prop where
  value : ∀ v, (given cs xs v).getD (saved h v) = (given cs' xs' v).getD (saved h v)
  computed : ∀ b ∈ bs, ∀ o ∈ b.outs, o ∈ cs ↔ o ∈ cs'

/-! ## Values -/

theorem saved_setCkpt (h : Heap V T A) (c : BV) (x : V) (hc : (h c).isControl = false) (v : BV) :
    saved (setCkpt h c (some x)) v = if c = v then x else saved h v := by
  unfold setCkpt saved
  rw [hc]
  by_cases hv : c = v
  · subst hv; simp
  · simp [hv, Function.update_of_ne (Ne.symm hv)]

theorem updateControls_given (cs : List BV) (xs : List V) (h : Heap V T A) (hf : ∀ v, (h v).isControl = false) (v : BV) :
    saved (updateControls cs xs h) v = (given cs xs v).getD (saved h v) := by
  unfold updateControls given
  have gen : ∀ (l : List (BV × V)) (acc : Option V) (h h₀ : Heap V T A), (∀ v, (h v).isControl = false) → saved h v = acc.getD (saved h₀ v) →
      saved (l.foldl (fun h p => setCkpt h p.1 (some p.2)) h) v
        = (l.foldl (fun acc p => if p.1 = v then some p.2 else acc) acc).getD (saved h₀ v) := by
    intro l
    induction l with
    | nil => intro acc h h₀ _ he; exact he
    | cons p l ih =>
      intro acc h h₀ hf he
      refine ih _ _ _ ?_ ?_
      · intro w
        show (setCkpt h p.1 (some p.2) w).isControl = false
        unfold setCkpt
        rw [hf]
        by_cases hw : w = p.1
        · subst hw; simp [hf]
        · simp [Function.update_of_ne hw, hf]
      · show saved (setCkpt h p.1 (some p.2)) v = (if p.1 = v then some p.2 else acc).getD (saved h₀ v)
        rw [saved_setCkpt _ _ _ (hf _)]
        split
        · rfl
        · exact he
  exact gen _ _ _ _ hf rfl

/-- Same saved values, and the same controls among the variables computed by blocks. -/
def SameForward (bs : Blocks V T A) (h h' : Heap V T A) : Prop :=
  (∀ v, saved h v = saved h' v) ∧ ∀ b ∈ bs, ∀ o ∈ b.outs, (h o).isControl = (h' o).isControl

theorem SameForward.set {bs : Blocks V T A} {h h' : Heap V T A} (H : SameForward bs h h') (v : BV) (hv : (h v).isControl = (h' v).isControl)
    (x : Option V) : SameForward bs (setCkpt? h v x) (setCkpt? h' v x) ∧ ∀ w, (setCkpt? h v x w).isControl = (h w).isControl ∧
      (setCkpt? h' v x w).isControl = (h' w).isControl := by
  cases x with
  | none => exact ⟨H, fun _ => ⟨rfl, rfl⟩⟩
  | some x =>
    have hc : ∀ (k : Heap V T A) (w : BV), (setCkpt k v (some x) w).isControl = (k w).isControl := by
      intro k w
      unfold setCkpt
      split
      · rfl
      · by_cases hw : w = v
        · subst hw; simp
        · rw [Function.update_of_ne hw]
    refine ⟨⟨?_, ?_⟩, fun w => ⟨hc h w, hc h' w⟩⟩
    · intro w
      simp only [setCkpt?]
      cases hb : (h v).isControl with
      | true =>
        unfold setCkpt
        rw [← hv, hb, if_pos rfl, if_pos rfl]
        exact H.1 w
      | false =>
        rw [saved_setCkpt _ _ _ hb, saved_setCkpt _ _ _ (hv ▸ hb), H.1 w]
    · intro b hb o ho
      simp only [setCkpt?]
      rw [hc, hc]
      exact H.2 b hb o ho

theorem SameForward.block {bs : Blocks V T A} {h h' : Heap V T A} (H : SameForward bs h h') (b : Block V T A) (hb : b ∈ bs) :
    SameForward bs (b.recompute false h) (b.recompute false h') := by
  unfold Block.recompute
  have hany : (b.outs.any fun o => (h o).isControl) = b.outs.any fun o => (h' o).isControl := by
    rw [Bool.eq_iff_iff, List.any_eq_true, List.any_eq_true]
    exact ⟨fun ⟨o, ho, e⟩ => ⟨o, ho, by rw [← H.2 b hb o ho]; exact e⟩, fun ⟨o, ho, e⟩ => ⟨o, ho, by rw [H.2 b hb o ho]; exact e⟩⟩
  have hin : b.deps.map (saved h) = b.deps.map (saved h') := List.map_congr_left fun v _ => H.1 v
  have hrel : relevant h false b.outs = relevant h' false b.outs := by simp [relevant]
  have hmem : ∀ p ∈ relevant h' false b.outs, p.1 ∈ b.outs := fun p hp => List.fst_mem_of_mem_zipIdx (List.mem_filter.1 hp).1
  simp only []
  rw [hany, hin, hrel]
  split
  · exact H
  · split
    · exact H
    · revert hmem
      generalize relevant h' false b.outs = l
      generalize b.deps.map (saved h') = inputs
      clear hany hin hrel
      rename_i h1 h2
      clear h1 h2
      induction l generalizing h h' with
      | nil => intro _; exact H
      | cons p l ih =>
        intro hmem
        have hp := H.2 b hb p.1 (hmem p (by simp))
        exact ih (H.set p.1 hp _).1 (fun q hq => hmem q (by simp [hq]))

theorem SameForward.replay {bs : Blocks V T A} (l : Blocks V T A) (hl : ∀ b ∈ l, b ∈ bs) {h h' : Heap V T A} (H : SameForward bs h h') :
    SameForward bs (recompute l h) (recompute l h') := by
  unfold recompute
  induction l generalizing h h' with
  | nil => exact H
  | cons b l ih => exact ih (fun c hc => hl c (by simp [hc])) (H.block b (hl b (by simp)))

/-- **C86, values.** Two evaluations that give every variable the same value end with the same saved values, whatever controls
they list and in whatever order. -/
theorem evaluation_of_same_inputs (bs : Blocks V T A) (h : Heap V T A) (hf : ∀ v, (h v).isControl = false) {cs cs' : List BV} {xs xs' : List V}
    (H : SameInputs bs h cs xs cs' xs') (v : BV) : saved (rfEval bs cs xs h) v = saved (rfEval bs cs' xs' h) v := by
  unfold rfEval
  simp only [saved_markControls]
  refine (SameForward.replay (bs := bs) bs (fun _ h => h) ⟨?_, ?_⟩).1 v
  · intro w
    simp only [saved_markControls]
    rw [updateControls_given _ _ _ hf, updateControls_given _ _ _ hf]
    exact H.value w
  · intro b hb o ho
    have hu : ∀ (cs : List BV) (xs : List V), (updateControls cs xs h o).isControl = false := by
      intro cs xs
      obtain ⟨k, hk⟩ := updateControls_frame cs xs h o
      rw [hk]; exact hf o
    rw [markControls_apply, markControls_apply]
    have := H.computed b hb o ho
    by_cases hc : o ∈ cs
    · rw [if_pos hc, if_pos (this.1 hc)]
    · rw [if_neg hc, if_neg (fun h => hc (this.2 h)), hu, hu]

/-- `c`, given the value `5` it has, as a further control in front of `x`. -/
theorem crashTape_sameInputs (x : ℝ) : SameInputs crashTape.blocks unitHeap [0] [x] [1, 0] [5, x] where
  value v := by
    simp only [given, List.zip_cons_cons, List.zip_nil_left, List.foldl_cons, List.foldl_nil]
    by_cases h0 : 0 = v
    · subst h0; simp
    · by_cases h1 : 1 = v
      · subst h1; simp [saved, unitHeap]
      · simp [h0, h1]
  computed b hb o ho := by
    simp only [FTape.blocks, crashTape, List.map_cons, List.map_nil, List.mem_cons, List.not_mem_nil, or_false] at hb
    rcases hb with rfl | rfl <;> simp only [FBlock.toBlock, List.mem_singleton] at ho <;> subst ho <;> decide

example (x : ℝ) : saved (rfEval crashTape.blocks [0] [x] unitHeap) 3 = saved (rfEval crashTape.blocks [1, 0] [5, x] unitHeap) 3 :=
  evaluation_of_same_inputs _ _ (fun _ => rfl) (crashTape_sameInputs x) 3

/-! ## Derivatives -/

/-- **C86, derivatives.** On a given state of the tape there is one number (value of type `A`) for each variable, such that the derivative
with respect to any list of controls is the list of these: the derivative with respect to a control does not depend on the others,
on their order, or on repetitions. -/
theorem derivative_control_by_control [Add A] [Zero A] {bs : Blocks V T A} (wf : WF bs) (J : BV) (seed : A) (h : Heap V T A) :
    ∃ D : BV → A, ∀ cs : List BV, (computeGradient bs J cs seed h).1 = cs.map D := by
  refine ⟨fun c => getDerivative (fullAdjoint bs J seed h) c, fun cs => List.map_congr_left fun c hc => ?_⟩
  unfold getDerivative
  rw [pruned_gradient_eq_full wf J cs seed h c hc]

/-- **C86.** Evaluating and differentiating two reduced functionals of `J` that give every variable the same value: with `D` the derivatives
of the one, those of the other are the same for the same controls. -/
theorem derivative_of_same_inputs [Add A] [Zero A] [Mul A] {bs : Blocks V T A} (wf : WF bs) (J : BV) (scale adjInput : A) (h : Heap V T A)
    (hf : ∀ v, (h v).isControl = false) {cs cs' : List BV} {xs xs' : List V} (H : SameInputs bs h cs xs cs' xs')
    (hon : ∀ c, c ∈ cs ∨ c ∈ cs' → OnTape bs c ∨ c = J) :
    ∃ D : BV → A, (rfDerivative bs J cs scale adjInput (rfEval bs cs xs h)).1 = cs.map D ∧
      (rfDerivative bs J cs' scale adjInput (rfEval bs cs' xs' h)).1 = cs'.map D := by
  obtain ⟨D, hD⟩ := derivative_control_by_control wf J (adjInput * scale) (rfEval bs cs xs h)
  refine ⟨D, hD cs, ?_⟩
  rw [← hD cs']
  exact gradient_of_saved wf J cs' (adjInput * scale) _ _ (fun v => (evaluation_of_same_inputs bs h hf H v).symm)
    fun c hc => (hon c (.inr hc)).imp_right .inl

/-- The derivatives of the example are `[dJ/dx]` and `[dJ/dc, dJ/dx]`. -/
example (x : ℝ) : ∃ D : BV → ℝ, (rfDerivative crashTape.blocks 3 [0] 1 1 (rfEval crashTape.blocks [0] [x] unitHeap)).1 = [D 0] ∧
    (rfDerivative crashTape.blocks 3 [1, 0] 1 1 (rfEval crashTape.blocks [1, 0] [5, x] unitHeap)).1 = [D 1, D 0] := by
  refine derivative_of_same_inputs crashTape_wf 3 1 1 unitHeap (fun _ => rfl) (crashTape_sameInputs x) fun c hc => .inl ?_
  refine ⟨_, List.mem_cons_self, .inl ?_⟩
  show c ∈ [0, 1]
  rcases hc with hc | hc
  · rw [List.mem_singleton.1 hc]; simp
  · simp only [List.mem_cons, List.not_mem_nil, or_false] at hc ⊢; exact hc.symm

/-! ## Hessians -/

theorem seedTlm_perm {ds ds' : List T} {cs cs' : List BV} (hp : (cs.zip ds).Perm (cs'.zip ds')) (hnd : ((cs.zip ds).map Prod.fst).Nodup)
    (h : Heap V T A) : seedTlm cs ds h = seedTlm cs' ds' h := by
  unfold seedTlm
  revert h hnd hp
  generalize cs.zip ds = l
  generalize cs'.zip ds' = l'
  intro hp
  induction hp with
  | nil => intros; rfl
  | cons p _ ih =>
    intro hnd h
    simp only [List.map_cons, List.nodup_cons] at hnd
    exact ih hnd.2 _
  | swap p q l =>
    intro hnd h
    simp only [List.map_cons, List.nodup_cons, List.mem_cons, not_or] at hnd
    simp only [List.foldl_cons]
    congr 1
    have hne : q.1 ≠ p.1 := hnd.1.1
    rw [Function.update_of_ne hne.symm, Function.update_of_ne hne, Function.update_comm hne]
  | trans h1 _ ih1 ih2 =>
    intro hnd h
    exact (ih1 hnd h).trans (ih2 ((h1.map _).nodup_iff.1 hnd) h)

theorem findRelevantNodes_congr (bs : Blocks V T A) {cs cs' : List BV} (hc : ∀ v, v ∈ cs ↔ v ∈ cs') (v : BV) :
    v ∈ findRelevantNodes bs cs ↔ v ∈ findRelevantNodes bs cs' := by
  unfold findRelevantNodes
  induction bs generalizing cs cs' with
  | nil => exact hc v
  | cons b bs ih =>
    simp only [List.foldl_cons]
    apply ih
    have hany : b.deps.any (· ∈ cs) = b.deps.any (· ∈ cs') := by simp only [hc]
    rw [hany]
    split
    · intro w; simp only [List.mem_append, hc w]
    · exact hc

theorem markAll_congr {ns ns' : List BV} (hn : ∀ v, v ∈ ns ↔ v ∈ ns') (m : Bool) (h : Heap V T A) : markAll ns m h = markAll ns' m h := by
  funext v
  rw [markAll_apply, markAll_apply]
  by_cases hv : v ∈ ns
  · rw [if_pos hv, if_pos ((hn v).1 hv)]
  · rw [if_neg hv, if_neg fun h => hv ((hn v).2 h)]

/-- **C86, Hessians, order of the controls.** Giving controls and directions in another order gives the same Hessian action in that order (or the same
exception), for every tape and state. -/
theorem hessian_of_permuted_controls (t : FTape) (J : BV) {cs cs' : List BV} {ds ds' : List ℝ} (hl : ds.length = cs.length)
    (hl' : ds'.length = cs'.length) (hp : (cs.zip ds).Perm (cs'.zip ds')) (hnd : cs.Nodup) (h : FHeap) :
    t.computeHessian J cs' ds' h = (t.computeHessian J cs ds h).map fun r => (cs'.map (getHessian r.2), r.2) := by
  have e1 : (cs.zip ds).map Prod.fst = cs := by rw [List.map_fst_zip]; omega
  have e2 : (cs'.zip ds').map Prod.fst = cs' := by rw [List.map_fst_zip]; omega
  have hc : ∀ v, v ∈ cs ↔ v ∈ cs' := by
    intro v
    have := (hp.map Prod.fst).mem_iff (a := v)
    rwa [e1, e2] at this
  unfold FTape.computeHessian
  simp only []
  rw [seedTlm_perm hp (by rw [e1]; exact hnd)]
  simp only [markAll_congr (findRelevantNodes_congr t.blocks hc)]
  generalize t.evaluateHessian true _ = r
  cases r <;> rfl

example (x : ℝ) (h : FHeap) : crashTape.computeHessian 3 [1, 0] [x, 1] h
    = (crashTape.computeHessian 3 [0, 1] [1, x] h).map fun r => ([getHessian r.2 1, getHessian r.2 0], r.2) :=
  hessian_of_permuted_controls crashTape 3 (cs := [0, 1]) (cs' := [1, 0]) (ds := [1, x]) (ds' := [x, 1]) rfl rfl (List.Perm.swap _ _ _) (by decide) h

/-- **C86 fails for Hessians and further controls.** `J(x, c) = (x c)²` at `c = 5`.  The Hessian action with respect to `x` in direction `1` is `10 x`;
with `c` as a further control, in direction `(1, 0)`, its first component is `50`. -/
theorem further_control_changes_hessian (x : ℝ) :
    (crashTape.computeHessian 3 [0] [1] (computeGradientState crashTape.blocks 3 [0] 1 (rfEval crashTape.blocks [0] [x] unitHeap))).map (·.1)
        = .ok [10 * x] ∧
      ∃ y, (crashTape.computeHessian 3 [0, 1] [1, 0] (computeGradientState crashTape.blocks 3 [0, 1] 1
        (rfEval crashTape.blocks [0, 1] [x, 5] unitHeap))).map (·.1) = .ok [50, y] := by
  constructor
  · apply Eq.trans (b := Except.ok [_]) rfl
    congr 2
    show 0 + ((1 : ℝ) * (0 + 1 * 5 + 0) + 0 * (x * 5) + (1 * (0 + 1 * 5 + 0) + 0 * (x * 5))) * x = _
    ring
  · have : ∃ u w, (crashTape.computeHessian 3 [0, 1] [1, 0] (computeGradientState crashTape.blocks 3 [0, 1] 1
        (rfEval crashTape.blocks [0, 1] [x, 5] unitHeap))).map (·.1) = .ok [u, w] ∧ u = 50 := by
      refine ⟨_, _, rfl, ?_⟩
      show ((1 : ℝ) * (x * 5) + 1 * (x * 5)) * 0 + (1 * (0 + 1 * 5 + 0 * x) + 0 * (x * 5) + (1 * (0 + 1 * 5 + 0 * x) + 0 * (x * 5))) * 5 = 50
      ring
    obtain ⟨u, w, e, rfl⟩ := this
    exact ⟨w, e⟩

/-! ## Hessians with right formulas -/

theorem derivative_eq_adjointAt (t : FTape) (J : BV) (cs : List BV) (scale adjInput : ℝ) (h : FHeap) (x : Fin cs.length → ℝ) :
    (rfDerivative t.blocks J cs scale adjInput (rfEval t.blocks cs (List.ofFn x) h)).1 = cs.map (adjointAt t J cs scale adjInput h x) := by
  refine List.map_congr_left fun c _ => ?_
  unfold getDerivative adjointAt
  simp only [rfDerivative, computeGradient]
  split <;> simp_all

/-- **C86, Hessians, part.** Two reduced functionals of `J` whose evaluations give every variable the same values along the line in the given direction
(for instance a further control that is given the value it has and the direction `0`).  If every operation depending on a control is twice differentiable
at its operands and has a right Hessian formula (`HessSafe`), and both `hessian` calls return, they return the same number for the same control. -/
theorem hessian_of_same_inputs_partial (t : FTape) (wf : WF t.blocks) (J : BV) (cs cs' : List BV) (hnd : cs.Nodup) (hnd' : cs'.Nodup) (h : FHeap)
    (hfl : ∀ v, (h v).isControl = false) (hind : IndependentControls t.blocks cs) (hind' : IndependentControls t.blocks cs')
    (scale adjInput : ℝ) (x₀ dir : Fin cs.length → ℝ) (x₀' dir' : Fin cs'.length → ℝ)
    (H : ∀ s : ℝ, SameInputs t.blocks h cs (List.ofFn (x₀ + s • dir)) cs' (List.ofFn (x₀' + s • dir')))
    (hsmooth : ∀ b ∈ t, (∃ d ∈ b.deps, Reach t.blocks (· ∈ cs) d) →
      b.Smooth2 (saved (rfEval t.blocks cs (List.ofFn x₀) h)) (Reach t.blocks (· ∈ cs)))
    (hsmooth' : ∀ b ∈ t, (∃ d ∈ b.deps, Reach t.blocks (· ∈ cs') d) →
      b.Smooth2 (saved (rfEval t.blocks cs' (List.ofFn x₀') h)) (Reach t.blocks (· ∈ cs')))
    (hon : ∀ c, c ∈ cs ∨ c ∈ cs' → OnTape t.blocks c ∨ c = J)
    (hsafe : ∀ b ∈ t, (∃ d ∈ b.deps, Reach t.blocks (· ∈ cs) d ∨ Reach t.blocks (· ∈ cs') d) → b.HessSafe)
    (hs hs' : List ℝ) (k k' : FHeap)
    (hok : t.computeHessian J cs (List.ofFn dir)
      (rfDerivative t.blocks J cs scale adjInput (rfEval t.blocks cs (List.ofFn x₀) h)).2 = .ok (hs, k))
    (hok' : t.computeHessian J cs' (List.ofFn dir')
      (rfDerivative t.blocks J cs' scale adjInput (rfEval t.blocks cs' (List.ofFn x₀') h)).2 = .ok (hs', k')) :
    ∃ (hess : Fin cs.length → ℝ) (hess' : Fin cs'.length → ℝ), hs = List.ofFn hess ∧ hs' = List.ofFn hess' ∧
      ∀ i j, cs[i] = cs'[j] → hess i = hess' j := by
  obtain ⟨hess, e, hd⟩ := hessian_eq_deriv_gradient t wf J cs hnd h hfl hind scale adjInput x₀ dir hsmooth
    (fun c hc => (hon c (.inl hc)).imp_right .inl) (fun b hb ⟨d, hd, hr⟩ => (hsafe b hb ⟨d, hd, .inl hr⟩).noDefect _ _ _ _) hs k hok
  obtain ⟨hess', e', hd'⟩ := hessian_eq_deriv_gradient t wf J cs' hnd' h hfl hind' scale adjInput x₀' dir' hsmooth'
    (fun c hc => (hon c (.inr hc)).imp_right .inl) (fun b hb ⟨d, hd, hr⟩ => (hsafe b hb ⟨d, hd, .inr hr⟩).noDefect _ _ _ _) hs' k' hok'
  refine ⟨hess, hess', e, e', fun i j hij => ?_⟩
  refine (hd i).unique ?_
  have : (fun s : ℝ => adjointAt t J cs scale adjInput h (x₀ + s • dir) cs[i])
      = fun s : ℝ => adjointAt t J cs' scale adjInput h (x₀' + s • dir') cs'[j] := by
    funext s
    obtain ⟨D, h1, h2⟩ := derivative_of_same_inputs wf J scale adjInput h hfl (H s) hon
    rw [derivative_eq_adjointAt] at h1 h2
    have h1 := List.map_inj_left.1 h1 cs[i] (by simp)
    have h2 := List.map_inj_left.1 h2 cs'[j] (by simp)
    rw [h1, h2, hij]
  rw [this]
  exact hd' j

/-- The hypotheses hold for `J(x, y) = x² / y + x` with control `x`, and with controls `y`, `x` in direction `(0, d)`, at `y = 5`. -/
example (x d : ℝ) : ∃ a b k k',
    exHess.computeHessian 4 [0] [d] (rfDerivative exHess.blocks 4 [0] 1 1 (rfEval exHess.blocks [0] [x] unitHeap)).2 = .ok ([a], k) ∧
    exHess.computeHessian 4 [1, 0] [0, d] (rfDerivative exHess.blocks 4 [1, 0] 1 1 (rfEval exHess.blocks [1, 0] [5, x] unitHeap)).2
      = .ok ([b, a], k') := by
  have hwf : WF exHess.blocks := by
    refine ⟨?_, ?_, by simp [FTape.blocks, exHess, FBlock.toBlock]⟩ <;>
    · intro b hb
      simp only [FTape.blocks, exHess, List.map_cons, List.map_nil, List.mem_cons, List.not_mem_nil, or_false] at hb
      rcases hb with rfl | rfl | rfl <;> simp [FBlock.toBlock]
  have hon : ∀ c, c ∈ [0] ∨ c ∈ [1, 0] → OnTape exHess.blocks c := by
    intro c hc
    have : c = 0 ∨ c = 1 := by simp at hc; tauto
    rcases this with rfl | rfl
    · exact ⟨_, by simp [FTape.blocks, exHess]; exact .inl rfl, by simp [FBlock.toBlock]⟩
    · exact ⟨_, by simp [FTape.blocks, exHess]; exact .inr (.inl rfl), by simp [FBlock.toBlock]⟩
  have hind : ∀ cs : List BV, (∀ c ∈ cs, c = 0 ∨ c = 1) → IndependentControls exHess.blocks cs := by
    intro cs hcs c hc b hb ho
    simp only [FTape.blocks, exHess, List.map_cons, List.map_nil, List.mem_cons, List.not_mem_nil, or_false] at hb
    rcases hb with rfl | rfl | rfl <;> rcases hcs c hc with rfl | rfl <;> simp [FBlock.toBlock] at ho
  have hsafe : ∀ b ∈ exHess, b.HessSafe := by
    intro b hb
    simp only [exHess, List.mem_cons, List.not_mem_nil, or_false] at hb
    rcases hb with rfl | rfl | rfl <;> first | rfl | trivial
  have hneed : ∀ cs : List BV, 0 ∈ cs → ∀ b ∈ exHess, b.NeedsAdj → Reach exHess.blocks (· ∈ cs) b.out := by
    intro cs h0 b hb hn
    simp only [exHess, List.mem_cons, List.not_mem_nil, or_false] at hb
    rcases hb with rfl | rfl | rfl
    · exact absurd hn id
    · refine Reach.step (b := FBlock.toBlock (.bin .div 2 1 3)) (d := 2) (by simp [FTape.blocks, exHess]) (by simp [FBlock.toBlock]) ?_
        (by simp [FBlock.toBlock, FBlock.out])
      exact Reach.step (b := FBlock.toBlock (.bin .mul 0 0 2)) (d := 0) (by simp [FTape.blocks, exHess]) (by simp [FBlock.toBlock])
        (Reach.base h0) (by simp [FBlock.toBlock])
    · exact absurd hn id
  have hsmooth : ∀ (vary : BV → Prop) (h : FHeap), saved h 1 ≠ 0 → ∀ b ∈ exHess, b.Smooth2 (saved h) vary := by
    intro vary h h1 b hb
    simp only [exHess, List.mem_cons, List.not_mem_nil, or_false] at hb
    rcases hb with rfl | rfl | rfl
    · trivial
    · exact h1
    · trivial
  obtain ⟨⟨hs, k⟩, r⟩ := hessian_returns_partial exHess hwf 4 [0] (rfEval exHess.blocks [0] [x] unitHeap) 1 1 [d] (fun c hc => .inl (hon c (.inl hc)))
    (hneed _ (by simp))
  obtain ⟨⟨hs', k'⟩, r'⟩ := hessian_returns_partial exHess hwf 4 [1, 0] (rfEval exHess.blocks [1, 0] [5, x] unitHeap) 1 1 [0, d]
    (fun c hc => .inl (hon c (.inr hc))) (hneed _ (by simp))
  have H : ∀ s : ℝ, SameInputs exHess.blocks unitHeap [0] (List.ofFn (![x] + s • ![d])) [1, 0] (List.ofFn (![5, x] + s • ![0, d])) := by
    intro s
    constructor
    · intro v
      simp only [given, List.ofFn_succ, List.ofFn_zero, List.zip_cons_cons, List.zip_nil_left, List.foldl_cons,
        List.foldl_nil]
      by_cases h0 : 0 = v
      · subst h0; simp
      · by_cases h1 : 1 = v
        · subst h1; simp [saved, unitHeap]
        · simp [h0, h1]
    · intro b hb o ho
      simp only [FTape.blocks, exHess, List.map_cons, List.map_nil, List.mem_cons, List.not_mem_nil, or_false] at hb
      rcases hb with rfl | rfl | rfl <;> simp only [FBlock.toBlock, List.mem_singleton] at ho <;> subst ho <;> decide
  have h5 : saved (rfEval exHess.blocks [0] (List.ofFn ![x]) unitHeap) 1 ≠ 0 := by
    show (5 : ℝ) ≠ 0
    norm_num
  have h5' : saved (rfEval exHess.blocks [1, 0] (List.ofFn ![5, x]) unitHeap) 1 ≠ 0 := by
    show (5 : ℝ) ≠ 0
    norm_num
  obtain ⟨hess, hess', e, e', he⟩ := hessian_of_same_inputs_partial exHess hwf 4 [0] [1, 0] (by simp) (by simp) unitHeap (fun _ => rfl)
    (hind _ (by simp)) (hind _ (by simp)) 1 1 ![x] ![d] ![5, x] ![0, d] H (fun b hb _ => hsmooth _ _ h5 b hb) (fun b hb _ => hsmooth _ _ h5' b hb)
    (fun c hc => .inl (hon c hc)) (fun b hb _ => hsafe b hb) hs hs' k k' (by simpa using r) (by simpa using r')
  refine ⟨hess 0, hess' 0, k, k', ?_, ?_⟩
  · rw [r, e]; simp
  · rw [r', e', he 0 1 rfl]; simp

end Pyadjoint
