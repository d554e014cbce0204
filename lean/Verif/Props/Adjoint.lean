import Verif.Model.Crash
import Verif.Proofs.Duality
import Verif.Proofs.Forward

/-!
# C03, C04, C07, C43: what the adjoint sweep computes, for arbitrary blocks

All theorems hold for every type of values and every block implementation.
-/

namespace Pyadjoint

variable {V T A R : Type*}

/-! ## A small tape used for the non-vacuity examples: `y = 2*x ; z = y + c` over the integers. -/

/-- `out = 2 * dep` over `Int` (example data). -/
def exDouble (d o : BV) : Block Int Int Int where
  deps := [d]
  outs := [o]
  recomputeC i _ := (i[0]?).map (2 * ·)
  adjC _ a _ := (a[0]?).join.map (2 * ·)
  tlmC _ t _ := (t[0]?).join.map (2 * ·)
  hessC _ a _ _ _ := (a[0]?).join.map (2 * ·)

/-- `out = d₀ + d₁` over `Int` (example data). -/
def exAdd (d₀ d₁ o : BV) : Block Int Int Int where
  deps := [d₀, d₁]
  outs := [o]
  recomputeC i _ := some i.sum
  adjC _ a _ := (a[0]?).join
  tlmC _ t _ := some ((t.map fun o => o.getD 0).sum)
  hessC _ a _ _ _ := (a[0]?).join

/-- `v₂ = 2*v₀ ; v₃ = v₂ + v₁` (example data). -/
def exTape : Blocks Int Int Int := [exDouble 0 2, exAdd 2 1 3]

/-- All variables hold `n` at address `n` (example data). -/
def exHeap : Heap Int Int Int := fun v => { output := v }

theorem exTape_wf : WF exTape :=
  ⟨by intro b hb; simp [exTape] at hb; rcases hb with rfl | rfl <;> simp [exDouble, exAdd],
   by intro b hb; simp [exTape] at hb; rcases hb with rfl | rfl <;> simp [exDouble, exAdd],
   by simp [exTape, exDouble, exAdd]⟩

/-! ## C03 -/

/-- The result of `compute_gradient` is a function of the saved values. -/
theorem gradient_of_saved [Add A] [Zero A] {bs : Blocks V T A} (wf : WF bs)
    (J : BV) (cs : List BV) (seed : A) (h₁ h₂ : Heap V T A)
    (hsv : ∀ v, saved h₁ v = saved h₂ v)
    (hon : ∀ c ∈ cs, OnTape bs c ∨ c = J ∨ (h₁ c).adj = (h₂ c).adj) :
    (computeGradient bs J cs seed h₁).1 = (computeGradient bs J cs seed h₂).1 := by
  classical
  have key : ∀ c ∈ cs, (computeGradientState bs J cs seed h₁ c).adj
      = (computeGradientState bs J cs seed h₂ c).adj := by
    intro c hc
    unfold computeGradientState markedAdjoint
    simp only []
    simp only [markAll_adj, markControls_adj]
    set nodes := findRelevantNodes bs cs with hnodes
    apply evaluateAdj_sim bs (· ∈ nodes) (findRelevantNodes_closed wf cs)
    · intro v hv
      simp only [markControls_apply, markAll_apply, hv, if_true]
      split <;> simp
    · intro v hv
      simp only [markControls_apply, markAll_apply, hv, if_true]
      split <;> simp
    · intro v hv
      have hv' : v ∈ cs ∨ OnTape bs v := by
        by_cases ho : ∀ b ∈ bs, v ∉ b.outs
        · exact Or.inl (mem_findRelevantNodes_of_not_out bs cs v ho hv)
        · push Not at ho
          obtain ⟨b, hb, ho⟩ := ho
          exact Or.inr ⟨b, hb, Or.inr ho⟩
      simp only [markAll_adj, markControls_adj]
      by_cases hJ : v = J
      · subst hJ; simp
      · rw [Function.update_of_ne hJ, Function.update_of_ne hJ, resetVariables_apply,
          resetVariables_apply]
        split
        · rfl
        · rename_i hoff
          rcases hv' with hv' | hv'
          · rcases hon v hv' with h | h | h
            · exact absurd h hoff
            · exact absurd h hJ
            · exact h
          · exact absurd hv' hoff
    · intro v
      simp only [saved_markAll, saved_markControls, saved_update_adj, saved_resetVariables]
      exact hsv v
    · exact subset_findRelevantNodes bs cs c hc
  unfold computeGradient
  simp only []
  apply List.map_congr_left
  intro c hc
  unfold getDerivative
  rw [key c hc]

example : WF exTape ∧ (∀ c ∈ [0], OnTape exTape c ∨ c = 3 ∨ (exHeap c).adj = some 7) ∧
    (computeGradient exTape 3 [0] 1 (fun v => { exHeap v with adj := some 7, marked := true })).1
      = [2] :=
  ⟨exTape_wf, by intro c hc; simp at hc; subst hc; exact Or.inl ⟨exDouble 0 2, by simp [exTape],
    by simp [exDouble]⟩, by decide⟩

/-- **C03.** The result of `compute_gradient` is a function of the forward values only: leftover
adjoint, tangent, Hessian values, path markings and control flags have no influence.  The only
proviso concerns controls that do not occur on the tape at all (see `stale_gradient_off_tape`). -/
theorem gradient_history_independent [Add A] [Zero A] {bs : Blocks V T A} (wf : WF bs)
    (J : BV) (cs : List BV) (seed : A) (h₁ h₂ : Heap V T A)
    (hout : ∀ v, (h₁ v).output = (h₂ v).output) (hck : ∀ v, (h₁ v).ckpt = (h₂ v).ckpt)
    (hon : ∀ c ∈ cs, OnTape bs c ∨ c = J ∨ (h₁ c).adj = (h₂ c).adj) :
    (computeGradient bs J cs seed h₁).1 = (computeGradient bs J cs seed h₂).1 := by
  exact gradient_of_saved wf J cs seed h₁ h₂ (fun v => saved_congr (hout v) (hck v)) hon

/-- What a gradient computation that raised leaves alone: forward values, and adjoint values off the tape
other than the functional's. -/
theorem crashedGradientState_frame [Add A] (bs : Blocks V T A) (h : Heap V T A)
    (J' : BV) (cs' : List BV) (seed' : A) (k j : Nat) :
    ∀ v, (crashedGradientState bs J' cs' seed' k j h v).output = (h v).output ∧
      (crashedGradientState bs J' cs' seed' k j h v).ckpt = (h v).ckpt ∧
      (¬ OnTape bs v → v ≠ J' → (crashedGradientState bs J' cs' seed' k j h v).adj = (h v).adj) := by
  classical
  have blk : ∀ (b : Block V T A) (h : Heap V T A) (v : BV),
      (b.evaluateAdj true h v).output = (h v).output ∧ (b.evaluateAdj true h v).ckpt = (h v).ckpt ∧
      (v ∉ b.deps → (b.evaluateAdj true h v).adj = (h v).adj) := by
    intro b h v
    rw [Block.evaluateAdj_apply]
    refine ⟨rfl, rfl, fun hv => ?_⟩
    show b.adjAfter true h v = _
    unfold Block.adjAfter
    rw [entries_nil_of_not_mem hv]; simp
  have fold : ∀ (l : Blocks V T A) (h : Heap V T A) (v : BV),
      (l.foldl (fun h b => b.evaluateAdj true h) h v).output = (h v).output ∧
      (l.foldl (fun h b => b.evaluateAdj true h) h v).ckpt = (h v).ckpt ∧
      ((∀ b ∈ l, v ∉ b.deps) → (l.foldl (fun h b => b.evaluateAdj true h) h v).adj = (h v).adj) := by
    intro l
    induction l with
    | nil => intro h v; exact ⟨rfl, rfl, fun _ => rfl⟩
    | cons b l ih =>
      intro h v
      obtain ⟨i1, i2, i3⟩ := ih (b.evaluateAdj true h) v
      obtain ⟨b1, b2, b3⟩ := blk b h v
      rw [List.foldl_cons]
      exact ⟨i1.trans b1, i2.trans b2, fun hv =>
        (i3 fun b' hb' => hv b' (by simp [hb'])).trans (b3 (hv b (by simp)))⟩
  have part : ∀ (b : Block V T A) (h : Heap V T A) (v : BV),
      (b.evaluateAdjPartial true j h v).output = (h v).output ∧
      (b.evaluateAdjPartial true j h v).ckpt = (h v).ckpt ∧
      (v ∉ b.deps → (b.evaluateAdjPartial true j h v).adj = (h v).adj) := by
    intro b h v
    unfold Block.evaluateAdjPartial
    simp only []
    split
    · exact ⟨rfl, rfl, fun _ => rfl⟩
    · have gen : ∀ (l : List (BV × Nat)) (c : Nat → Option A) (h : Heap V T A),
          (∀ p ∈ l, p.1 ∈ b.deps) →
          (l.foldl (fun h p => addAdj? h p.1 (c p.2)) h v).output = (h v).output ∧
          (l.foldl (fun h p => addAdj? h p.1 (c p.2)) h v).ckpt = (h v).ckpt ∧
          (v ∉ b.deps → (l.foldl (fun h p => addAdj? h p.1 (c p.2)) h v).adj = (h v).adj) := by
        intro l c
        induction l with
        | nil => intro h _; exact ⟨rfl, rfl, fun _ => rfl⟩
        | cons p l ih =>
          intro h hl
          obtain ⟨i1, i2, i3⟩ := ih (addAdj? h p.1 (c p.2)) (fun q hq => hl q (by simp [hq]))
          rw [List.foldl_cons]
          have st : (addAdj? h p.1 (c p.2) v).output = (h v).output ∧
              (addAdj? h p.1 (c p.2) v).ckpt = (h v).ckpt ∧
              (v ∉ b.deps → (addAdj? h p.1 (c p.2) v).adj = (h v).adj) := by
            rw [addAdj?_eq]
            by_cases hv : v = p.1
            · subst hv
              simp only [Function.update_self]
              exact ⟨trivial, trivial, fun h' => absurd (hl p (by simp)) h'⟩
            · simp [Function.update_of_ne hv]
          exact ⟨i1.trans st.1, i2.trans st.2.1, fun hv => (i3 hv).trans (st.2.2 hv)⟩
      apply gen
      intro p hp
      exact mem_of_mem_zipIdx (List.mem_of_mem_filter (List.mem_of_mem_take hp))
  intro v
  unfold crashedGradientState
  simp only []
  have mc : ∀ (m : Bool) (g : Heap V T A), (markControls cs' m g v).output = (g v).output ∧
      (markControls cs' m g v).ckpt = (g v).ckpt ∧ (markControls cs' m g v).adj = (g v).adj := by
    intro m g; simp
  have ma : ∀ (ns : List BV) (g : Heap V T A), (markAll ns true g v).output = (g v).output ∧
      (markAll ns true g v).ckpt = (g v).ckpt ∧ (markAll ns true g v).adj = (g v).adj := by
    intro m g; simp
  set g := Function.update (resetVariables bs .adjoint h) J'
    { resetVariables bs .adjoint h J' with adj := some seed' } with hg
  have hg' : (g v).output = (h v).output ∧ (g v).ckpt = (h v).ckpt ∧
      (¬ OnTape bs v → v ≠ J' → (g v).adj = (h v).adj) := by
    have hr : (resetVariables bs .adjoint h v).output = (h v).output ∧
        (resetVariables bs .adjoint h v).ckpt = (h v).ckpt ∧
        (¬ OnTape bs v → (resetVariables bs .adjoint h v).adj = (h v).adj) := by
      rw [resetVariables_apply]
      split
      · exact ⟨rfl, rfl, fun h' => by contradiction⟩
      · exact ⟨rfl, rfl, fun _ => rfl⟩
    by_cases hv : v = J'
    · subst hv
      rw [hg]
      simp only [Function.update_self]
      exact ⟨hr.1, hr.2.1, fun _ h' => absurd rfl h'⟩
    · rw [hg, Function.update_of_ne hv]
      exact ⟨hr.1, hr.2.1, fun h' _ => hr.2.2 h'⟩
  set g₁ := markControls cs' true (markAll (findRelevantNodes bs cs') true g) with hg₁
  have e1 : (g₁ v).output = (g v).output ∧ (g₁ v).ckpt = (g v).ckpt ∧ (g₁ v).adj = (g v).adj :=
    ⟨(mc true _).1.trans (ma _ g).1, (mc true _).2.1.trans (ma _ g).2.1,
      (mc true _).2.2.trans (ma _ g).2.2⟩
  obtain ⟨f1, f2, f3⟩ := fold (bs.reverse.take k) g₁ v
  set g₂ := (bs.reverse.take k).foldl (fun h b => b.evaluateAdj true h) g₁ with hg₂
  have e2 : ¬ OnTape bs v → (g₂ v).adj = (g₁ v).adj := fun hoff => f3 fun b hb hd =>
    hoff ⟨b, List.mem_reverse.1 (List.mem_of_mem_take hb), Or.inl hd⟩
  simp only [markControls_output, markControls_ckpt, markControls_adj]
  cases hk : bs.reverse[k]? with
  | none =>
    exact ⟨f1.trans (e1.1.trans hg'.1), f2.trans (e1.2.1.trans hg'.2.1),
      fun a c => (e2 a).trans (e1.2.2.trans (hg'.2.2 a c))⟩
  | some b =>
    obtain ⟨p1, p2, p3⟩ := part b g₂ v
    refine ⟨p1.trans (f1.trans (e1.1.trans hg'.1)), p2.trans (f2.trans (e1.2.1.trans hg'.2.1)),
      fun a c => (p3 fun hd => a ⟨b, ?_, Or.inl hd⟩).trans
        ((e2 a).trans (e1.2.2.trans (hg'.2.2 a c)))⟩
    exact List.mem_reverse.1 (List.mem_of_getElem? hk)

/-- **C03, crash form.** A gradient computation that raised an exception at any block and any component,
with any other functional and controls, does not change the result of a later one. -/
theorem gradient_after_crash [Add A] [Zero A] {bs : Blocks V T A} (wf : WF bs)
    (J : BV) (cs : List BV) (seed : A) (h : Heap V T A)
    (J' : BV) (cs' : List BV) (seed' : A) (k j : Nat)
    (hon : ∀ c ∈ cs, OnTape bs c ∨ c = J ∨ c ≠ J') :
    (computeGradient bs J cs seed (crashedGradientState bs J' cs' seed' k j h)).1
      = (computeGradient bs J cs seed h).1 := by
  have crash := crashedGradientState_frame bs h J' cs' seed' k j
  apply gradient_history_independent wf
  · intro v; exact (crash v).1
  · intro v; exact (crash v).2.1
  · intro c hc
    by_cases ht : OnTape bs c
    · exact Or.inl ht
    · rcases hon c hc with h | h | h
      · exact Or.inl h
      · exact Or.inr (Or.inl h)
      · exact Or.inr (Or.inr ((crash c).2.2 ht h))

example : WF exTape ∧ (computeGradient exTape 3 [0, 1] 1
    (crashedGradientState exTape 2 [0] 5 1 0 exHeap)).1 = [2, 1] := ⟨exTape_wf, by decide⟩

end Pyadjoint
