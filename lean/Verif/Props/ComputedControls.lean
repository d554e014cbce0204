import Verif.Props.ControlSets

/-!
# C87: controls computed from one another

`Control(x)` and `Control(y)` where the program computes `y` from `x`.  An evaluation skips the block that computes `y`
(`block.py:343-345`), so the functional depends on `x` and `y` separately; the adjoint sweep does not skip it.
-/

namespace Pyadjoint

variable {V T A : Type*}

/-! ## Specification -/

/-- What has to be added to output `i` of a block so that it gives the value the output has now. -/
def offsetOf [AddCommGroup V] (h : Heap V T A) (b : Block V T A) (i : Nat) : V :=
  match b.outs[i]?, b.recomputeC (b.deps.map (saved h)) i with
  | some o, some y => saved h o - y
  | _, _ => 0

/-- The block with its outputs corrected by these numbers. -/
def offsetBlock [AddCommGroup V] (h : Heap V T A) (b : Block V T A) : Block V T A :=
  { b with recomputeC := fun u i => (b.recomputeC u i).map (· + offsetOf h b i) }

/-- The program that gives the present values at the present inputs. -/
def withOffsets [AddCommGroup V] (h : Heap V T A) (bs : Blocks V T A) : Blocks V T A := bs.map (offsetBlock h)

/-- The present values are those the program computes. -/
def Computed (bs : Blocks V T A) (h : Heap V T A) : Prop :=
  ∀ b ∈ bs, ∀ (i : Nat) (hi : i < b.outs.length), ∀ y, b.recomputeC (b.deps.map (saved h)) i = some y → saved h b.outs[i] = y

/-! ## Tapes with the same structure -/

section
variable [AddCommGroup V]

theorem withOffsets_wf {bs : Blocks V T A} (wf : WF bs) (h : Heap V T A) : WF (withOffsets h bs) where
  nodup := by
    intro b hb
    obtain ⟨b, hb', rfl⟩ := List.mem_map.1 hb
    exact wf.nodup b hb'
  self := by
    intro b hb
    obtain ⟨b, hb', rfl⟩ := List.mem_map.1 hb
    exact wf.self b hb'
  later := List.pairwise_map.2 wf.later

theorem withOffsets_reach {bs : Blocks V T A} (h : Heap V T A) {S : BV → Prop} {v : BV} : Reach (withOffsets h bs) S v ↔ Reach bs S v := by
  constructor
  · intro r
    induction r with
    | base hv => exact .base hv
    | step hb hd _ ho ih =>
      obtain ⟨b, hb', rfl⟩ := List.mem_map.1 hb
      exact .step hb' hd ih ho
  · intro r
    induction r with
    | base hv => exact .base hv
    | step hb hd _ ho ih => exact .step (List.mem_map.2 ⟨_, hb, rfl⟩) hd ih ho

theorem withOffsets_onTape {bs : Blocks V T A} (h : Heap V T A) {v : BV} : OnTape (withOffsets h bs) v ↔ OnTape bs v := by
  constructor
  · rintro ⟨b, hb, hv⟩
    obtain ⟨b, hb', rfl⟩ := List.mem_map.1 hb
    exact ⟨b, hb', hv⟩
  · rintro ⟨b, hb, hv⟩
    exact ⟨_, List.mem_map.2 ⟨b, hb, rfl⟩, hv⟩

/-- Derivatives do not depend on `recompute_component`. -/
theorem withOffsets_gradient [Add A] [Zero A] (bs : Blocks V T A) (h : Heap V T A) (J : BV) (cs : List BV) (seed : A) (g : Heap V T A) :
    computeGradient (withOffsets h bs) J cs seed g = computeGradient bs J cs seed g := by
  have h1 : ∀ (ty : ResetType) (g : Heap V T A), resetVariables (withOffsets h bs) ty g = resetVariables bs ty g := by
    intro ty g
    unfold resetVariables withOffsets
    rw [← List.map_reverse, List.foldl_map]
    rfl
  have h2 : findRelevantNodes (withOffsets h bs) cs = findRelevantNodes bs cs := by
    unfold findRelevantNodes withOffsets
    rw [List.foldl_map]
    rfl
  have h3 : ∀ (m : Bool) (g : Heap V T A), evaluateAdj (withOffsets h bs) m g = evaluateAdj bs m g := by
    intro m g
    unfold evaluateAdj withOffsets
    rw [← List.map_reverse, List.foldl_map]
    rfl
  unfold computeGradient computeGradientState markedAdjoint
  simp only [h1, h2, h3]

/-- Evaluating the corrected program with a control at its present value changes nothing. -/
theorem withOffsets_fixed {bs : Blocks V T A} (wf : WF bs) (h : Heap V T A) (hfl : ∀ v, (h v).isControl = false) (c : BV) :
    ∀ v, saved (rfEval (withOffsets h bs) [c] [saved h c] h) v = saved h v := by
  have wf' := withOffsets_wf wf h
  have hfr : ∀ v, (rfEval (withOffsets h bs) [c] [saved h c] h v).output = (h v).output := by
    intro v
    obtain ⟨k, hk⟩ := rfEval_frame (withOffsets h bs) [c] [saved h c] h v (fun c _ => hfl c)
    rw [hk]
  have hctl : saved (rfEval (withOffsets h bs) [c] [saved h c] h) c = saved h c := by
    have := rfEval_control (withOffsets h bs) [c] [saved h c] h (by simp) rfl (fun c _ => hfl c) 0 (by simp)
    simp only [List.getElem_cons_zero] at this
    rw [saved, this]
  apply tape_induction wf' (P := fun v => saved (rfEval (withOffsets h bs) [c] [saved h c] h) v = saved h v)
  · intro v hv
    by_cases hc : v = c
    · rw [hc]; exact hctl
    · rw [saved, rfEval_leaf _ [c] _ h v (by simpa using hc) hv]; rfl
  · intro b hb ih o ho
    by_cases hc : o = c
    · rw [hc]; exact hctl
    obtain ⟨i, hi, rfl⟩ := List.getElem_of_mem ho
    have hk := hfr b.outs[i]
    by_cases hbc : ∃ o ∈ b.outs, o ∈ [c]
    · have := rfEval_block_control wf' [c] [saved h c] h b hb hbc i hi (by simpa using hc)
      exact saved_congr hk this
    · have := rfEval_block wf' [c] [saved h c] h hfl b hb (fun o ho hoc => hbc ⟨o, ho, hoc⟩) i hi
      rw [List.map_congr_left ih] at this
      obtain ⟨b, hb', rfl⟩ := List.mem_map.1 hb
      have e : (offsetBlock h b).recomputeC (b.deps.map (saved h)) i = (b.recomputeC (b.deps.map (saved h)) i).map fun _ => saved h b.outs[i] := by
        unfold offsetBlock offsetOf
        simp only []
        have : b.outs[i]? = some b.outs[i] := List.getElem?_eq_getElem hi
        rw [this]
        cases b.recomputeC (b.deps.map (saved h)) i with
        | none => rfl
        | some y => simp
      replace this : _ = orKeep _ ((offsetBlock h b).recomputeC (b.deps.map (saved h)) i) := this
      rw [e] at this
      cases hr : b.recomputeC (b.deps.map (saved h)) i with
      | none =>
        rw [hr] at this
        exact saved_congr hk this
      | some y =>
        rw [hr] at this
        rw [saved, this]; rfl

/-- Where the present values are those the program computes, nothing is corrected. -/
theorem withOffsets_computed {bs : Blocks V T A} (h : Heap V T A) (hc : Computed bs h) : withOffsets h bs = bs := by
  refine (List.map_congr_left fun b hb => ?_).trans (List.map_id bs)
  have : ∀ i, offsetOf h b i = 0 := by
    intro i
    unfold offsetOf
    split
    · rename_i o y ho hy
      obtain ⟨hi, rfl⟩ := List.getElem?_eq_some_iff.1 ho
      rw [hc b hb i hi y hy, sub_self]
    · rfl
  unfold offsetBlock
  simp [this]

end

/-- A single control is never computed from itself. -/
theorem single_control_independent {bs : Blocks V T A} (wf : WF bs) (c : BV) : IndependentControls bs [c] := by
  intro c' hc b hb ho d hd hr
  obtain rfl := List.mem_singleton.1 hc
  obtain ⟨k, hk, rfl⟩ := List.getElem_of_mem hb
  have hpw := List.pairwise_iff_getElem.1 wf.later
  have key : ∀ v, Reach bs (· ∈ [c']) v → v = c' ∨ ∃ j, ∃ hj : j < bs.length, k < j ∧ v ∈ bs[j].outs := by
    intro v r
    induction r with
    | base hv => exact .inl (List.mem_singleton.1 hv)
    | @step b' d' o' hb' hd' _ ho' ih =>
      obtain ⟨m, hm, rfl⟩ := List.getElem_of_mem hb'
      refine .inr ⟨m, hm, ?_, ho'⟩
      rcases ih with rfl | ⟨j, hj, hkj, hdj⟩
      · rcases Nat.lt_trichotomy k m with h | h | h
        · exact h
        · subst h; exact absurd ho (wf.self _ hb' _ hd')
        · exact absurd ho ((hpw m k hm hk h).1 _ hd')
      · rcases Nat.lt_trichotomy j m with h | h | h
        · omega
        · subst h; exact absurd hdj (wf.self _ hb' _ hd')
        · exact absurd hdj ((hpw m j hm hj h).1 _ hd')
  rcases key d hr with rfl | ⟨j, hj, hkj, hdj⟩
  · exact wf.self _ hb _ hd ho
  · exact (hpw k j hk hj hkj).1 d hd hdj

/-! ## Derivatives -/

theorem CorrectAdjoint.mono [NormedAddCommGroup V] [NormedSpace ℝ V] [AddCommMonoid A] {ι : A →+ (V →L[ℝ] ℝ)} {b : Block V T A}
    {x : Fin b.deps.length → V} {vary vary' : Fin b.deps.length → Prop} (hc : CorrectAdjoint ι b x vary) (hv : ∀ j, vary' j → vary j) :
    CorrectAdjoint ι b x vary' := by
  obtain ⟨G, h1, h2⟩ := hc.deriv
  exact ⟨hc.total, G, fun i => (h1 i).mono fun u hu j hj => hu j fun h => hj (hv j h), fun lam hl j hj => h2 lam hl j (hv j hj)⟩

theorem CorrectAdjoint.offset [NormedAddCommGroup V] [NormedSpace ℝ V] [AddCommMonoid A] {ι : A →+ (V →L[ℝ] ℝ)} {b : Block V T A}
    {x : Fin b.deps.length → V} {vary : Fin b.deps.length → Prop} (hc : CorrectAdjoint ι b x vary) (h : Heap V T A) :
    CorrectAdjoint ι (offsetBlock h b) x vary := by
  obtain ⟨G, h1, h2⟩ := hc.deriv
  refine ⟨fun u i => by simpa [offsetBlock] using hc.total u i, G, fun i => ?_, h2⟩
  have : (fun u : Fin b.deps.length → V => ((offsetBlock h b).recomputeC (List.ofFn u) i).getD 0)
      = fun u => (b.recomputeC (List.ofFn u) i).getD 0 + offsetOf h b i := by
    funext u
    obtain ⟨y, hy⟩ := Option.isSome_iff_exists.1 (hc.total u i)
    simp [offsetBlock, hy]
  exact (congrArg (fun f => HasFDerivWithinAt f _ _ _) this).mpr ((h1 i).add_const _)

/-- **C87 for arbitrary blocks.** Whatever the controls are, and whatever values the variables have: the derivative with respect to a control `c` is the
derivative of the functional as a function of `c` alone, of the program corrected so that it gives the present values at the present inputs.  In
particular it includes what `c` contributes through other controls. -/
theorem derivative_of_any_controls_partial [NormedAddCommGroup V] [NormedSpace ℝ V] [AddCommMonoid A] {bs : Blocks V T A} (wf : WF bs) (J : BV) (cs : List BV)
    (h : Heap V T A) (hfl : ∀ v, (h v).isControl = false) (ι : A →+ (V →L[ℝ] ℝ)) (seed : A)
    (hcorrect : ∀ b ∈ bs, (∃ d ∈ b.deps, Reach bs (· ∈ cs) d) →
      CorrectAdjoint ι b (fun j => saved h b.deps[j]) (fun j => Reach bs (· ∈ cs) b.deps[j]))
    (hon : ∀ c ∈ cs, OnTape bs c ∨ c = J) :
    ∃ D : BV → A, (computeGradient bs J cs seed h).1 = cs.map D ∧
      ∀ c ∈ cs, HasFDerivAt (fun y => ι seed (saved (rfEval (withOffsets h bs) [c] [y] h) J)) (ι (D c)) (saved h c) := by
  obtain ⟨D, hD⟩ := derivative_control_by_control wf J seed h
  refine ⟨D, hD cs, fun c hc => ?_⟩
  have hfix := withOffsets_fixed wf h hfl c
  have hmono : ∀ v, Reach bs (· ∈ [c]) v → Reach bs (· ∈ cs) v := by
    intro v r
    induction r with
    | base hv => exact .base (List.mem_singleton.1 hv ▸ hc)
    | step hb hd _ ho ih => exact .step hb hd ih ho
  obtain ⟨grad, hg, hder⟩ := gradient_exact (withOffsets_wf wf h) J [c] (by simp) h hfl (single_control_independent (withOffsets_wf wf h) c)
    (fun _ => saved h c) ι seed (by
      intro b hb hd
      obtain ⟨b, hb', rfl⟩ := List.mem_map.1 hb
      have e : (List.ofFn fun _ : Fin [c].length => saved h c) = [saved h c] := rfl
      simp only [e, hfix, withOffsets_reach] at hd ⊢
      obtain ⟨d, hd, hr⟩ := hd
      exact ((hcorrect b hb' ⟨d, hd, hmono d hr⟩).mono fun j hj => hmono _ hj).offset h)
    (fun c' hc' => by
      obtain rfl := List.mem_singleton.1 hc'
      exact (hon c' hc).imp (withOffsets_onTape h).2 .inl)
  have e1 : (computeGradient (withOffsets h bs) J [c] seed (rfEval (withOffsets h bs) [c] [saved h c] h)).1 = [D c] := by
    rw [withOffsets_gradient]
    refine Eq.trans ?_ (hD [c])
    exact gradient_of_saved wf J [c] seed _ _ hfix fun c' hc' => by
      obtain rfl := List.mem_singleton.1 hc'
      exact (hon c' hc).imp_right .inl
  have e2 : grad 0 = D c := by
    have := hg.symm.trans e1
    simpa using this
  let L : V →L[ℝ] (Fin [c].length → V) := ContinuousLinearMap.pi fun _ => ContinuousLinearMap.id ℝ V
  have hcomp := HasFDerivAt.comp (saved h c) (f := fun y => L y) hder L.hasFDerivAt
  refine hcomp.congr_fderiv ?_
  ext y
  simp [L, ← e2]

/-- **C87.** After `rf(x)`, where the controls that the program computes were given the values it computes: each component of
`rf.derivative()` is the derivative of the reduced functional with that control alone, with the others left to the program. -/
theorem derivative_of_computed_controls_partial (t : FTape) (wf : WF t.blocks) (J : BV) (cs : List BV) (xs : List ℝ) (h : FHeap)
    (hfl : ∀ v, (h v).isControl = false) (scale adjInput : ℝ)
    (hgiven : ∀ b ∈ t.blocks, (∃ o ∈ b.outs, o ∈ cs) → ∀ (i : Nat) (hi : i < b.outs.length), ∀ y,
      b.recomputeC (b.deps.map (saved (rfEval t.blocks cs xs h))) i = some y → saved (rfEval t.blocks cs xs h) b.outs[i] = y)
    (hsmooth : ∀ b ∈ t, (∃ d ∈ b.deps, Reach t.blocks (· ∈ cs) d) →
      b.Smooth (saved (rfEval t.blocks cs xs h)) (Reach t.blocks (· ∈ cs)))
    (hon : ∀ c ∈ cs, OnTape t.blocks c ∨ c = J) :
    ∃ D : BV → ℝ, (rfDerivative t.blocks J cs scale adjInput (rfEval t.blocks cs xs h)).1 = cs.map D ∧
      ∀ c ∈ cs, HasDerivAt (fun y => adjInput * rfValue t J [c] scale (rfEval t.blocks cs xs h) fun _ => y) (D c)
        (saved (rfEval t.blocks cs xs h) c) := by
  have hfl' : ∀ v, (rfEval t.blocks cs xs h v).isControl = false := by
    intro v
    obtain ⟨k, hk⟩ := rfEval_frame t.blocks cs xs h v (fun c _ => hfl c)
    rw [hk]; exact hfl v
  have hcomp : Computed t.blocks (rfEval t.blocks cs xs h) := by
    intro b hb i hi y hy
    by_cases hbc : ∃ o ∈ b.outs, o ∈ cs
    · exact hgiven b hb hbc i hi y hy
    · have := rfEval_block wf cs xs h hfl b hb (fun o ho hoc => hbc ⟨o, ho, hoc⟩) i hi
      rw [hy] at this
      rw [saved, this]; rfl
  obtain ⟨D, h1, h2⟩ := derivative_of_any_controls_partial wf J cs (rfEval t.blocks cs xs h) hfl' mulFunctional (adjInput * scale) (by
      intro b hb hd
      obtain ⟨fb, hfb, rfl⟩ := List.mem_map.1 hb
      apply FBlock.correctAdjoint fb
      apply hsmooth fb hfb
      cases fb <;> exact hd) hon
  refine ⟨D, h1, fun c hc => ?_⟩
  have := (h2 c hc).hasDerivAt
  rw [withOffsets_computed _ hcomp] at this
  refine (this.congr_deriv (by simp)).congr_of_eventuallyEq (Filter.Eventually.of_forall fun y => ?_)
  simp only [rfValue_eq, mulFunctional_apply]
  show _ = _ * saved (rfEval t.blocks [c] (List.ofFn fun _ : Fin [c].length => y) _) J
  ring

/-- `y = x + x ; J = y * y`, with `x`, `y`, `J` the variables `0`, `1`, `2`. -/
def twiceTape : FTape := [.bin .add 0 0 1, .bin .mul 1 1 2]

theorem twiceTape_wf : WF twiceTape.blocks := by
  refine ⟨?_, ?_, by simp [FTape.blocks, twiceTape, FBlock.toBlock]⟩ <;>
  · intro b hb
    simp only [FTape.blocks, twiceTape, List.map_cons, List.map_nil, List.mem_cons, List.not_mem_nil, or_false] at hb
    rcases hb with rfl | rfl <;> simp [FBlock.toBlock]

/-- The hypotheses of `derivative_of_computed_controls_partial` hold for `twiceTape` with controls `x` and `y` at `(x, 2 x)`. -/
example (x : ℝ) : ∃ D : BV → ℝ, (rfDerivative twiceTape.blocks 2 [0, 1] 1 1 (rfEval twiceTape.blocks [0, 1] [x, x + x] unitHeap)).1 = [D 0, D 1] ∧
    HasDerivAt (fun y => 1 * rfValue twiceTape 2 [0] 1 (rfEval twiceTape.blocks [0, 1] [x, x + x] unitHeap) fun _ => y) (D 0) x := by
  obtain ⟨D, h1, h2⟩ := derivative_of_computed_controls_partial twiceTape twiceTape_wf 2 [0, 1] [x, x + x] unitHeap (fun _ => rfl) 1 1 (by
      intro b hb hc i hi y hy
      simp only [FTape.blocks, twiceTape, List.map_cons, List.map_nil, List.mem_cons, List.not_mem_nil, or_false] at hb
      rcases hb with rfl | rfl
      · obtain rfl : i = 0 := by simpa [FBlock.toBlock] using hi
        exact Option.some.inj hy
      · obtain ⟨o, ho, hoc⟩ := hc
        rw [show o = 2 from by simpa [FBlock.toBlock] using ho] at hoc
        simp at hoc) (by
      intro b hb _
      simp only [twiceTape, List.mem_cons, List.not_mem_nil, or_false] at hb
      rcases hb with rfl | rfl <;> trivial) (by
      intro c hc
      refine .inl ⟨_, List.mem_cons_self, ?_⟩
      show c ∈ [0, 0] ∨ c ∈ [1]
      simpa using hc)
  exact ⟨D, h1, h2 0 (by simp)⟩

/-- **C02 fails for controls computed from one another.** `y = x + x ; J = y * y` with controls `x` and `y`: `rf(x, y) = y²` does not depend on `x`, and
`rf.derivative()` returns `[4 y, 2 y]`, at every point. -/
theorem computed_control_wrong_derivative (x y : ℝ) :
    (∀ u : Fin 2 → ℝ, rfValue twiceTape 2 [0, 1] 1 unitHeap u = u 1 * u 1) ∧
      (rfDerivative twiceTape.blocks 2 [0, 1] 1 1 (rfEval twiceTape.blocks [0, 1] [x, y] unitHeap)).1 = [4 * y, 2 * y] := by
  constructor
  · intro u
    rw [rfValue_eq]
    show u 1 * u 1 * 1 = _
    ring
  · have : ∃ a b, (rfDerivative twiceTape.blocks 2 [0, 1] 1 1 (rfEval twiceTape.blocks [0, 1] [x, y] unitHeap)).1 = [a, b] ∧ a = 4 * y ∧ b = 2 * y := by
      refine ⟨_, _, rfl, ?_, ?_⟩
      · show ((1 : ℝ) * 1 * y + 1 * 1 * y) + (1 * 1 * y + 1 * 1 * y) = _
        ring
      · show (1 : ℝ) * 1 * y + 1 * 1 * y = _
        ring
    obtain ⟨a, b, e, rfl, rfl⟩ := this
    exact e

end Pyadjoint
