import Verif.Props.Adjoint

/-!
# C07, C43, C51: pruning, independent controls, `solve_adjoint`
-/

namespace Pyadjoint

variable {V T A R : Type*}

/-- **C07.** The sweep restricted to marked paths leaves on every control the adjoint value that a
sweep over the complete tape leaves there. -/
theorem pruned_gradient_eq_full [Add A] {bs : Blocks V T A} (wf : WF bs)
    (J : BV) (cs : List BV) (seed : A) (h : Heap V T A) :
    ∀ c ∈ cs, (computeGradientState bs J cs seed h c).adj = (fullAdjoint bs J seed h c).adj := by
  intro c hc
  unfold computeGradientState markedAdjoint fullAdjoint
  simp only [markAll_adj, markControls_adj]
  apply evaluateAdj_sim bs (· ∈ findRelevantNodes bs cs) (findRelevantNodes_closed wf cs)
  · intro v hv; simp [markAll_apply, hv]
  · intro v _; simp
  · intro v _; simp
  · intro v; simp
  · exact subset_findRelevantNodes bs cs c hc

example : WF exTape ∧ (computeGradientState exTape 3 [0] 1 exHeap 0).adj = some 2 ∧
    -- the pruned sweep really skips something: variable 1 gets no adjoint value
    (computeGradientState exTape 3 [0] 1 exHeap 1).adj = none ∧
    (fullAdjoint exTape 3 1 exHeap 1).adj = some 1 :=
  ⟨exTape_wf, by decide, by decide, by decide⟩

/-- The nodes a gradient computation works on are exactly the variables that are controls or
are computed from a control. -/
theorem marked_nodes_iff_reachable {bs : Blocks V T A} (wf : WF bs) (cs : List BV) (v : BV) :
    v ∈ findRelevantNodes bs cs ↔ Reach bs (· ∈ cs) v :=
  findRelevantNodes_iff wf cs v

example : Reach exTape (· ∈ [0]) 3 ∧ ¬ Reach exTape (· ∈ [0]) 1 := by
  constructor
  · rw [← marked_nodes_iff_reachable exTape_wf]; decide
  · rw [← marked_nodes_iff_reachable exTape_wf]; decide

/-- A sweep puts adjoint values only on variables from which the seeded variables were computed. -/
theorem adj_support [Add A] (bs : Blocks V T A) (m : Bool) (h : Heap V T A) (S : BV → Prop)
    (hS : ∀ v, (h v).adj.isSome → CoReach bs S v) :
    ∀ v, (evaluateAdj bs m h v).adj.isSome → CoReach bs S v := by
  have gen : ∀ (l : Blocks V T A) (h : Heap V T A), (∀ b ∈ l, b ∈ bs) →
      (∀ v, (h v).adj.isSome → CoReach bs S v) →
      ∀ v, (l.foldl (fun h b => b.evaluateAdj m h) h v).adj.isSome → CoReach bs S v := by
    intro l
    induction l with
    | nil => intro h _ hS; exact hS
    | cons b l ih =>
      intro h hl hS
      rw [List.foldl_cons]
      apply ih _ (fun b' hb' => hl b' (by simp [hb']))
      intro v hv
      rw [Block.evaluateAdj_apply] at hv
      simp only [Block.adjAfter] at hv
      split at hv
      · exact hS v hv
      · rename_i hn
        by_cases hd : v ∈ b.deps
        · have hn' : ∃ o ∈ b.outs, (h o).adj.isSome := by
            by_contra hcon
            push Not at hcon
            apply hn
            rw [List.all_eq_true]
            intro x hx
            obtain ⟨o, ho, rfl⟩ := List.mem_map.1 hx
            simpa using hcon o ho
          obtain ⟨o, ho, hos⟩ := hn'
          exact CoReach.step (hl b (by simp)) ho (hS o hos) hd
        · rw [entries_nil_of_not_mem hd] at hv
          simp only [List.foldl_nil, ite_self] at hv
          exact hS v hv
  intro v
  exact gen bs.reverse h (fun b hb => List.mem_reverse.1 hb) hS v

/-- A control on the tape from which the functional is not computed has no adjoint value after a gradient computation. -/
theorem unused_adj_none [Add A] [Zero A] (bs : Blocks V T A) (J c : BV)
    (cs : List BV) (seed : A) (h : Heap V T A) (hon : OnTape bs c)
    (hind : ¬ CoReach bs (· = J) c) :
    (computeGradientState bs J cs seed h c).adj = none := by
  classical
  unfold computeGradientState markedAdjoint
  simp only [markAll_adj, markControls_adj]
  rw [← Option.not_isSome_iff_eq_none]
  intro hs
  have := adj_support bs true _ (fun v => CoReach bs (· = J) v ∨ ¬ OnTape bs v) (by
    intro v hv
    apply CoReach.base
    simp only [markAll_adj, markControls_adj] at hv
    by_cases hJ : v = J
    · exact Or.inl (CoReach.base hJ)
    · rw [Function.update_of_ne hJ, resetVariables_apply] at hv
      split at hv
      · simp [Var.reset] at hv
      · rename_i hoff; exact Or.inr hoff) c hs
  have fin : ∀ v, CoReach bs (fun v => CoReach bs (· = J) v ∨ ¬ OnTape bs v) v →
      CoReach bs (· = J) v ∨ ¬ OnTape bs v := by
    intro v hv
    induction hv with
    | base h => exact h
    | step hb ho _ hd ih =>
      rcases ih with ih | ih
      · exact Or.inl (CoReach.step hb ho ih hd)
      · exact absurd ⟨_, hb, Or.inr ho⟩ ih
  rcases fin c this with h | h
  · exact hind h
  · exact h hon

/-- **C43 (controls on the tape).** If the functional is not computed from the control, the derivative
reported for it is zero, whatever was computed before.  Missing for the full claim: controls
that do not occur on the tape, for which it is false, see `stale_gradient_off_tape`. -/
theorem independent_control_zero_partial [Add A] [Zero A] (bs : Blocks V T A) (J c : BV)
    (cs : List BV) (seed : A) (h : Heap V T A) (hon : OnTape bs c)
    (hind : ¬ CoReach bs (· = J) c) :
    getDerivative (computeGradient bs J cs seed h).2 c = 0 := by
  have key := unused_adj_none bs J c cs seed h hon hind
  unfold computeGradient getDerivative
  simp only [key]

/-- In the example tape, variable 3 is not needed for variable 2. -/
example : OnTape exTape 1 ∧ ¬ CoReach exTape (· = 2) 1 ∧
    getDerivative (computeGradient exTape 2 [0, 1] 5 exHeap).2 1 = 0 := by
  refine ⟨⟨exAdd 2 1 3, by simp [exTape], by simp [exAdd]⟩, ?_, by decide⟩
  intro h
  have : ∀ v, CoReach exTape (· = 2) v → v ≠ 1 ∧ v ≠ 3 := by
    intro v hv
    induction hv with
    | base h => subst h; decide
    | step hb ho _ hd ih =>
      simp only [exTape, List.mem_cons, List.not_mem_nil, or_false] at hb
      rcases hb with rfl | rfl
      · simp only [exDouble, List.mem_singleton] at hd; subst hd; decide
      · simp only [exAdd, List.mem_singleton] at ho; subst ho; exact absurd rfl ih.2
  exact (this 1 h).1 rfl

/-- **C43 is false for controls off the tape.**  Two tapes: `y = 2*x` and `w = 2*u`.  After a gradient of
`y` with respect to `x` on the first, the gradient of `w` with respect to the *independent* control `x`
on the second tape is reported as `2`, the stale value of the first computation, instead of `0`. -/
theorem stale_gradient_off_tape :
    ∃ (tape₁ tape₂ : Blocks Int Int Int) (x y w : BV) (h : Heap Int Int Int),
      WF tape₁ ∧ WF tape₂ ∧ (∀ v, (h v).adj = none) ∧
      ¬ OnTape tape₂ x ∧ ¬ CoReach tape₂ (· = w) x ∧
      (computeGradient tape₂ w [x] 1 (computeGradient tape₁ y [x] 1 h).2).1 = [2] := by
  refine ⟨[exDouble 0 1], [exDouble 2 3], 0, 1, 3, exHeap, ?_, ?_, fun _ => rfl, ?_, ?_, by decide⟩
  · exact ⟨by simp [exDouble], by simp [exDouble], by simp⟩
  · exact ⟨by simp [exDouble], by simp [exDouble], by simp⟩
  · simp [OnTape, exDouble]
  · intro h
    have : ∀ v, CoReach [exDouble 2 3] (· = 3) v → v ≠ 0 := by
      intro v hv
      induction hv with
      | base h => subst h; decide
      | step hb ho _ hd ih =>
        simp only [List.mem_singleton] at hb
        subst hb
        simp only [exDouble, List.mem_singleton] at hd; subst hd; decide
    exact this 0 h rfl

/-! ## C51: `solve_adjoint` -/

/-- **C51 is false.** `solve_adjoint` computes nothing at all: after it, no variable of the tape carries an
adjoint value, whatever the tape, the functional and the seed. -/
theorem solve_adjoint_computes_nothing [Add A] (bs : Blocks V T A) (J : BV) (seed : A)
    (h : Heap V T A) : ∀ v, OnTape bs v → (solveAdjoint bs J seed h v).adj = none := by
  classical
  intro v hv
  unfold solveAdjoint
  rw [← Option.not_isSome_iff_eq_none]
  intro hs
  have := adj_support bs false _ (fun v => ¬ OnTape bs v) (by
    intro v hv
    apply CoReach.base
    rw [resetVariables_apply] at hv
    split at hv
    · simp [Var.reset] at hv
    · assumption) v hs
  have fin : ∀ v, CoReach bs (fun v => ¬ OnTape bs v) v → ¬ OnTape bs v := by
    intro v hv
    induction hv with
    | base h => exact h
    | step hb ho _ hd ih => exact absurd ⟨_, hb, Or.inr ho⟩ ih
  exact fin v this hv

/-- The documented result differs: on `y = 2*x` the sensitivity of `x` is `2`. -/
theorem solve_adjoint_wrong :
    ∃ (bs : Blocks Int Int Int) (J x : BV) (h : Heap Int Int Int), WF bs ∧
      (fullAdjoint bs J 1 h x).adj = some 2 ∧ (solveAdjoint bs J 1 h x).adj = none := by
  refine ⟨[exDouble 0 1], 1, 0, exHeap, ?_, by decide, by decide⟩
  exact ⟨by simp [exDouble], by simp [exDouble], by simp⟩

end Pyadjoint
