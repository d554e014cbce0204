import Verif.Proofs.CkptAdjoint
import Verif.Props.CheckpointValue

/-!
# C26: the gradient under checkpointing

Directly after recording, every schedule gives the gradient that the tape without checkpointing gives
(`recorded_gradient_partial`).  After an evaluation with other control values this fails for standard schedules, see
`multistage_gradient_stale`, `unused_control_gradient_stale` and `single_memory_gradient_stale`.
-/

namespace Pyadjoint
namespace CTape

variable {V T A : Type*}

/-- The schedule reverses every step once, last to first. -/
def Schedule.Reverses (sch : Schedule) : Prop :=
  ∀ N, 0 < N → (sch.maxN = 0 ∨ N = sch.maxN) →
    reversedSteps (untilEndReverse (if sch.maxN = 0 then sch.afterFinal N else sch.acts)) = (List.range N).reverse

theorem exact_untilEndReverse {n N : Nat} {fwd acts : List Action} (h : Exact n N fwd) :
    reversedSteps (untilEndReverse (fwd ++ acts)) = reversedSteps (untilEndReverse acts) := by
  induction h with
  | done => rfl
  | step _ _ _ _ _ _ _ _ _ _ ih => exact ih
  | last _ _ _ _ _ _ _ _ ih => exact ih

/-- Fields recording never touches. -/
def Same (h h' : Heap V T A) : Prop :=
  ∀ v, (h' v).output = (h v).output ∧ (h' v).adj = (h v).adj ∧ (h' v).marked = (h v).marked ∧
    (h' v).isControl = (h v).isControl

theorem Same.refl (h : Heap V T A) : Same h h := fun _ => ⟨rfl, rfl, rfl, rfl⟩

theorem Same.trans {h₁ h₂ h₃ : Heap V T A} (h : Same h₁ h₂) (h' : Same h₂ h₃) : Same h₁ h₃ :=
  fun v => ⟨(h' v).1.trans (h v).1, (h' v).2.1.trans (h v).2.1, (h' v).2.2.1.trans (h v).2.2.1,
    (h' v).2.2.2.trans (h v).2.2.2⟩

theorem Same.ckpt {h h' : Heap V T A} (e : ∀ v, ∃ c, h' v = { h v with ckpt := c }) : Same h h' := by
  intro v
  obtain ⟨c, e⟩ := e v
  rw [e]
  exact ⟨rfl, rfl, rfl, rfl⟩

theorem same_saveOutput (h : Heap V T A) (v : BV) (o : Bool) : Same h (saveOutput h v o) := by
  intro w
  unfold saveOutput
  split
  · by_cases hw : w = v
    · subst hw; rw [Function.update_self]; exact ⟨rfl, rfl, rfl, rfl⟩
    · rw [Function.update_of_ne hw]; exact ⟨rfl, rfl, rfl, rfl⟩
  · exact ⟨rfl, rfl, rfl, rfl⟩

theorem same_update {h : Heap V T A} {v : BV} {x : Var V T A} (ho : x.output = (h v).output)
    (ha : x.adj = (h v).adj) (hm : x.marked = (h v).marked) (hc : x.isControl = (h v).isControl) :
    Same h (Function.update h v x) := by
  intro w
  by_cases hw : w = v
  · subst hw; rw [Function.update_self]; exact ⟨ho, ha, hm, hc⟩
  · rw [Function.update_of_ne hw]; exact ⟨rfl, rfl, rfl, rfl⟩

theorem recordBlock_same (b : Block V T A) (τ : CTape V T A) : Same τ.heap (τ.recordBlock b).heap := by
  have hd : ∀ (l : List BV) (τ : CTape V T A), Same τ.heap (l.foldl (fun τ v => τ.depend v) τ).heap := by
    intro l
    induction l with
    | nil => exact fun τ => Same.refl _
    | cons v l ih =>
      intro τ
      refine Same.trans ?_ (ih (τ.depend v))
      exact (same_saveOutput τ.heap v false).trans (same_update rfl rfl rfl rfl)
  have ho : ∀ (l : List BV) (τ : CTape V T A), Same τ.heap (l.foldl (fun τ v => τ.output v) τ).heap := by
    intro l
    induction l with
    | nil => exact fun τ => Same.refl _
    | cons v l ih =>
      intro τ
      refine Same.trans ?_ (ih (τ.output v))
      unfold output
      dsimp only
      split
      · refine Same.trans ?_ (same_saveOutput _ v true)
        exact same_update rfl rfl rfl rfl
      · exact same_update rfl rfl rfl rfl
  unfold recordBlock
  exact (hd b.deps τ).trans (ho b.outs _)

theorem mgrEndTimestep_same {t : Nat} {τ τ' : CTape V T A} (h : mgrEndTimestep t τ = .ok τ') :
    Same τ.heap τ'.heap := by
  obtain ⟨-, hloop⟩ := mgrEndTimestep_ok h
  exact Same.ckpt (endTimestepLoop_ended (fun _ => False) (fun v => (τ.heap v).output) hloop).1.heap

theorem recording_same (es : List (Event V T A)) {τ τ' : CTape V T A} (h : recording es τ = .ok τ') :
    Same τ.heap τ'.heap := by
  induction es generalizing τ with
  | nil => simp only [recording, List.foldlM_nil] at h; cases h; exact Same.refl _
  | cons e es ih =>
    rw [recording_cons] at h
    cases e with
    | block b => exact (recordBlock_same b τ).trans (ih h)
    | endTimestep =>
      simp only [event] at h
      split at h
      · cases h
      · rename_i τ₁ h₁
        exact (mgrEndTimestep_same h₁).trans (ih h)

theorem Recorded.same {sch : Schedule} {h : Heap V T A} {es : List (Event V T A)} {τ : CTape V T A}
    (hr : Recorded sch h es τ) : Same h τ.heap := by
  obtain ⟨gc, pk, eager, τ₀, hgc, h1, h2⟩ := hr.recorded
  refine Same.trans ?_ (recording_same es h2)
  unfold enable at h1
  split at h1
  · cases h1
  · split at h1
    · cases h1
    · split at h1
      · cases h1
      · exact mgrEndTimestep_same h1

theorem seedAdjoint_same {h h' : Heap V T A} (hs : Same h h') (J : BV) (cs : List BV) (a : A)
    (bs : Blocks V T A) : Same (seedAdjoint J cs a bs h) (seedAdjoint J cs a bs h') := by
  classical
  intro v
  obtain ⟨h1, h2, h3, h4⟩ := hs v
  have hr : ∀ g : Heap V T A, resetVariables bs .adjoint g v =
      if OnTape bs v then (g v).reset .adjoint else g v := fun g => resetVariables_apply bs .adjoint g v
  unfold seedAdjoint
  dsimp only
  simp only [markControls_apply, markAll_apply]
  by_cases hJ : v = J
  · subst hJ
    simp only [Function.update_self, hr]
    by_cases hc : v ∈ cs <;> by_cases hm : v ∈ findRelevantNodes bs cs <;> by_cases ht : OnTape bs v <;>
      simp [hc, hm, ht, Var.reset, h1, h3, h4]
  · simp only [Function.update_of_ne hJ, hr]
    by_cases hc : v ∈ cs <;> by_cases hm : v ∈ findRelevantNodes bs cs <;> by_cases ht : OnTape bs v <;>
      simp [hc, hm, ht, Var.reset, h1, h2, h3, h4]

theorem getDerivative_congr [Zero A] {h h' : Heap V T A} {c : BV} (e : (h c).adj = (h' c).adj) :
    getDerivative h c = getDerivative h' c := by
  unfold getDerivative
  rw [e]

/-- **C26** (partial: directly after recording).  For every recording and every well-formed schedule that reverses
every step once: if the derivative is computed, it is the one that the same program recorded without checkpointing
gives, provided recomputing an operation from the recorded values gives the recorded result. -/
theorem recorded_gradient_partial [Add A] [Zero A] {sch : Schedule} {h : Heap V T A} {es : List (Event V T A)}
    {τ : CTape V T A} (hr : Recorded sch h es τ) (hrev : sch.Reverses)
    (hfaithful : ∀ b ∈ Event.blocks es, ∀ (i : Nat) (o : BV), b.outs[i]? = some o →
      ∀ y, b.recomputeC (b.deps.map fun d => (h d).output) i = some y → y = (h o).output)
    {J : BV} {cs : List BV} {a : A} {ds : List A} {τ' : CTape V T A}
    (hd : rfDerivative J cs a τ = .ok (ds, τ')) :
    ds = (computeGradient (Event.blocks es) J cs a h).1 := by
  have hst : Stable (fun _ => True) (Event.blocks es) (fun v => (h v).output) :=
    fun b hb i o ho _ => ⟨fun _ _ => trivial, hfaithful b hb i o ho⟩
  have hal := hr.alive (fun _ => True)
  obtain ⟨gc, pk, eager, τ₀, hgc, h1, h2⟩ := hr.recorded
  have hf : Fresh (fun _ => True) (fun v => (h v).output) h :=
    ⟨fun _ => rfl, fun v _ c hc => (by rw [(hr.unused v).1] at hc; cases hc),
      fun v => (hr.unused v).2.2.2.1, fun v => (hr.unused v).2.2.2.2⟩
  have ht := (taped_enable hf hgc h1).recording es (show WF ([] ++ Event.blocks es) from hr.ssa) h2
  rw [List.nil_append] at ht
  have hsame := hr.same
  have hbl : τ.blocks = Event.blocks es := ht.blocks
  -- the reference
  have href : (computeGradient (Event.blocks es) J cs a h).1 =
      cs.map (getDerivative (evaluateAdj (Event.blocks es) true (seedAdjoint J cs a (Event.blocks es) h))) := by
    unfold computeGradient computeGradientState markedAdjoint
    dsimp only
    refine List.map_congr_left fun c _ => ?_
    unfold getDerivative
    simp only [markAll_adj, markControls_adj]
    rfl
  unfold rfDerivative at hd
  rw [hbl] at hd
  split at hd
  · cases hd
  · rename_i τ₃ h₃
    simp only [Except.ok.injEq, Prod.mk.injEq] at hd
    obtain ⟨rfl, -⟩ := hd
    rw [href]
    unfold evaluateAdjTape at h₃
    have ht' := ht.onHeap (heapOK_seed (fun _ => True) J cs a (Event.blocks es) τ.heap)
    split at h₃
    · cases h₃
    · rename_i τ₁ h₁
      split at h₃
      · cases h₃
      · split at h₃
        · cases h₃
        · rename_i τ₂ h₂
          cases h₃
          -- after the end of recording
          obtain ⟨⟨N, c1⟩, c2, -, c3⟩ := finishTaping_core hr.wellFormed (Or.inl ht') h₁
          have hcases : ∃ sch', τ₁.mgr.fwd ++ τ₁.mgr.acts = sch' ∧
              reversedSteps (untilEndReverse sch') = countdown N ∧ τ₁.mgr.rev = [] ∧
              τ₁.mgr.current ≠ .endReverse := by
            have hN : N = τ₁.steps.length := c1.length.symm
            unfold finishTaping at h₁
            split at h₁
            · obtain ⟨f1, f2, f3, f4, f5, f6, -, f7⟩ := endTaping_ok ht'.track (by rw [ht'.maxN]) h₁
              have hcur : τ₁.mgr.current ≠ .endReverse := by rw [f7]; exact Action.noConfusion
              by_cases hm : sch.maxN = 0
              · have hm' : (τ.onHeap (seedAdjoint J cs a (Event.blocks es))).mgr.maxN = 0 := by
                  rw [ht'.maxN]; exact hm
                obtain ⟨g1, g2⟩ := f6 hm'
                refine ⟨_, g2, ?_, f4, hcur⟩
                have := hrev N c1.pos (Or.inl hm)
                rw [if_pos hm] at this
                rcases hr.wellFormed with ⟨hw, -⟩ | ⟨-, wi, wa, st, rest, hw, -⟩
                · exact absurd hm hw
                · rw [ht'.unbounded hm wi wa st rest hw, ht'.afterFinal, ← g1, ← hN]
                  exact this
              · have hm' : (τ.onHeap (seedAdjoint J cs a (Event.blocks es))).mgr.maxN ≠ 0 := by
                  rw [ht'.maxN]; exact hm
                refine ⟨sch.acts, (f5 hm').2, ?_, f4, hcur⟩
                have := hrev N c1.pos (Or.inr (by rw [hN, (f5 hm').1, ht'.maxN]))
                rw [if_neg hm] at this
                exact this
            · rename_i hmode
              cases h₁
              have hev := ht'.track.mode.resolve_left hmode
              have hcur := ht'.track.finished.1 hev
              have hm : sch.maxN ≠ 0 := by
                intro hm
                have := ht'.track.eq hev
                rw [ht'.track.total, if_pos hm] at this
                cases this
              refine ⟨_, ht'.track.sched, ?_, ht'.track.rev, by rw [hcur]; exact Action.noConfusion⟩
              have hN' : N = sch.maxN := by
                have := ht'.track.eq hev
                rw [ht'.track.total, if_neg hm] at this
                rw [hN]
                simpa using this.symm
              have := hrev N c1.pos (Or.inr hN')
              rw [if_neg hm] at this
              exact this
          obtain ⟨sch', e1, e2, e3, e4⟩ := hcases
          have hl : reversedSteps (untilEndReverse τ₁.mgr.acts) = countdown N := by
            rw [← e2, ← e1, exact_untilEndReverse c1.fwd]
          unfold reverseSweep at h₂
          rw [if_neg (by simp [e3])] at h₂
          have hinv : RInv true (fun v => (h v).output) (seedAdjoint J cs a (Event.blocks es) h) N τ₁ := by
            have hs' : Same (seedAdjoint J cs a (Event.blocks es) h) τ₁.heap :=
              (seedAdjoint_same hsame J cs a (Event.blocks es)).trans (Same.ckpt c3)
            refine ⟨by rw [c1.blocks]; exact hr.ssa, by rw [c1.blocks]; exact hst, c1.clean,
              fun v => (hs' v).2.2.1, fun v _ => ?_⟩
            have : τ₁.blocksFrom N = [] := by
              unfold blocksFrom
              rw [← c1.length, List.drop_length]
              rfl
            rw [this]
            exact (hs' v).2.1
          have hg : ∀ v, saved (seedAdjoint J cs a (Event.blocks es) h) v = (h v).output := by
            intro v
            obtain ⟨x, m, e⟩ := seedAdjoint_frame J cs a (Event.blocks es) h v
            unfold saved
            rw [e]
            dsimp only
            rw [(hr.unused v).1]
          have hfin := firstReverse_inv hg e4 hl hinv h₂
          have hsh := (reverseSweep_clean (fun _ => True) (fun v => (h v).output) (τ := τ₁) (τ' := τ₂)
            (m := true) (by unfold reverseSweep; rw [if_neg (by simp [e3])]; exact h₂)).1
          refine List.map_congr_left fun c hc => ?_
          have hcc : (τ₂.heap c).isControl = true := by
            rw [hsh.control]
            obtain ⟨x, e⟩ := c3 c
            rw [e]
            show (seedAdjoint J cs a (Event.blocks es) τ.heap c).isControl = true
            obtain ⟨x, m, e⟩ := seedAdjoint_frame J cs a (Event.blocks es) τ.heap c
            rw [e]
            dsimp only
            rw [if_pos hc]
          have hadj := hfin.adj c (Or.inl hcc)
          rw [blocksFrom_zero, hsh.blocks, c1.blocks] at hadj
          refine getDerivative_congr ?_
          rw [← hadj]
          obtain ⟨m, e⟩ := unmark_frame cs (Event.blocks es) τ₂.heap c
          show (unmark cs (Event.blocks es) τ₂.heap c).adj = _
          rw [e]

/-! ### Non-vacuity and refutations -/

/-- The derivatives returned. -/
def derivatives : Except CkptError (List A × CTape V T A) → Option (List A)
  | .error _ => none
  | .ok (ds, _) => some ds

/-- Record, evaluate the functional `J` for new values of the control `0`, and take the derivative. -/
def callThenDerivative (J : BV) (x : Int) (τ : CTape Int Int Int) : Option (Int × List Int) :=
  match rfCall (fun x => x != 0) J [0] 1 [x] τ with
  | .error _ => none
  | .ok (y, τ) =>
    match rfDerivative J [0] 1 τ with
    | .error _ => none
    | .ok (ds, _) => some (y, ds)

/-- The standard schedule for two steps with one snapshot. -/
def multistage2 : Schedule where
  acts := [.forward 0 (some 1) true false .ram, .forward 1 (some 2) false true .work, .endForward,
    .reverse 2 1 true, .move 0 .ram, .forward 0 (some 1) false true .work, .reverse 1 0 true, .endReverse]
  maxN := 2

theorem multistage2_wellFormed : multistage2.WellFormed :=
  Or.inl ⟨by decide, .step 0 1 2 _ _ _ _ (by decide) (by decide)
    (.step 1 2 2 _ _ _ _ (by decide) (by decide) (.done _ _))⟩

theorem multistage2_reverses : multistage2.Reverses := by
  rintro N hN (h | rfl)
  · cases h
  · decide

/-- Step 0 computes `u = x * x`, step 1 computes `J = u * u`. -/
def exPower : List (Event Int Int Int) :=
  [.block (mulBlk 0 0 1), .endTimestep, .block (mulBlk 1 1 2), .endTimestep]

theorem exPower_wf : WF (Event.blocks exPower) := exLate_wf

/-- `recorded_gradient_partial` applies: `d(x⁴)/dx = 32` at the recorded `x = 2`. -/
example : derivatives (rfDerivative 2 [0] 1 (tapeOf emptyTape (record multistage2 (freshHeap [2, 4, 16]) exPower)))
    = some [32] := by
  have hr := recorded_of (out := [2, 4, 16]) multistage2_wellFormed exPower_wf (by decide +kernel)
  cases hd : rfDerivative 2 [0] 1 (tapeOf emptyTape (record multistage2 (freshHeap [2, 4, 16]) exPower)) with
  | error e =>
    have : derivatives (rfDerivative 2 [0] 1
      (tapeOf emptyTape (record multistage2 (freshHeap [2, 4, 16]) exPower))) ≠ none := by decide +kernel
    rw [hd] at this
    exact absurd rfl this
  | ok r =>
    have := recorded_gradient_partial hr multistage2_reverses (by
      intro b hb i o ho y hy
      simp only [exPower, Event.blocks, List.mem_cons, List.not_mem_nil, or_false] at hb
      rcases hb with rfl | rfl <;>
      · cases i with
        | zero => simp [mulBlk] at ho; subst ho; cases hy; rfl
        | succ i => simp [mulBlk] at ho) (ds := r.1) (τ' := r.2) (by rw [hd])
    show some r.1 = _
    rw [this]
    decide +kernel

/-- **C26 fails after an evaluation, for the standard multistage schedule**: `process_operation` for `Forward` forgets
the state of the step that is reversed next, although it is kept in working memory for the adjoint
(`checkpointing.py:354-375`).  For `J(x) = x⁴` recorded at `x = 2` and evaluated at `x = 3`, the derivative is
`48 = 2·2²·2·3` instead of `108`. -/
theorem multistage_gradient_stale :
    ∃ (sch : Schedule) (h : Heap Int Int Int) (es : List (Event Int Int Int)) (τ : CTape Int Int Int),
      Recorded sch h es τ ∧ sch.Reverses ∧ τ.mgr.mode ≠ .record ∧
      (computeGradient (Event.blocks es) 2 [0] 1 (rfEval (Event.blocks es) [0] [3] h)).1 = [108] ∧
      callThenDerivative 2 3 τ = some (81, [48]) := by
  refine ⟨multistage2, freshHeap [2, 4, 16], exPower, _,
    recorded_of multistage2_wellFormed exPower_wf (by decide +kernel), multistage2_reverses, by decide +kernel, by decide +kernel, by decide +kernel⟩

/-- Everything needed for the adjoint of each step is stored on disk. -/
def singleDisk2 : Schedule where
  acts := [.forward 0 (some 2) false true .disk, .endForward, .copy 1 .disk, .reverse 2 1 true,
    .copy 0 .disk, .reverse 1 0 true, .endReverse]
  maxN := 2

theorem singleDisk2_wellFormed : singleDisk2.WellFormed :=
  Or.inl ⟨by decide +kernel, .step 0 2 2 _ _ _ _ (by decide +kernel) (by decide +kernel) (.done _ _)⟩

theorem singleDisk2_reverses : singleDisk2.Reverses := by
  rintro N hN (h | rfl)
  · cases h
  · decide

/-- **C26 fails after an evaluation for a control that is not used in every step**: its value is forgotten during the
evaluation (`checkpointing.py:354-375`) and not restored in the adjoint, where controls are protected
(`block_variable.py:92-96`).  `J(x) = x⁴` again, all steps stored on disk. -/
theorem unused_control_gradient_stale :
    ∃ (sch : Schedule) (h : Heap Int Int Int) (es : List (Event Int Int Int)) (τ : CTape Int Int Int),
      Recorded sch h es τ ∧ sch.Reverses ∧ τ.mgr.mode ≠ .record ∧
      (computeGradient (Event.blocks es) 2 [0] 1 (rfEval (Event.blocks es) [0] [3] h)).1 = [108] ∧
      callThenDerivative 2 3 τ = some (81, [72]) := by
  refine ⟨singleDisk2, freshHeap [2, 4, 16], exPower, _,
    recorded_of singleDisk2_wellFormed exPower_wf (by decide +kernel), singleDisk2_reverses, by decide +kernel, by decide +kernel, by decide +kernel⟩

/-- `SingleMemoryStorageSchedule` for three steps. -/
def singleMemory3 : Schedule where
  acts := [.forward 0 (some 3) false true .work, .endForward, .reverse 3 0 true, .endReverse]
  maxN := 3
  singleMem := true

theorem singleMemory3_wellFormed : singleMemory3.WellFormed :=
  Or.inl ⟨by decide +kernel, .step 0 3 3 _ _ _ _ (by decide +kernel) (by decide +kernel) (.done _ _)⟩

theorem singleMemory3_reverses : singleMemory3.Reverses := by
  rintro N hN (h | rfl)
  · cases h
  · decide

/-- Step 0 computes `u = x * x`, step 1 computes `w = u * u`, step 2 computes `J = u * w`. -/
def exSixth : List (Event Int Int Int) :=
  [.block (mulBlk 0 0 1), .endTimestep, .block (mulBlk 1 1 2), .endTimestep, .block (mulBlk 1 2 3), .endTimestep]

theorem exSixth_wf : WF (Event.blocks exSixth) := by
  refine ⟨by decide +kernel, ?_, ?_⟩ <;> simp [exSixth, Event.blocks, mulBlk]

/-- **C26 fails after an evaluation when everything is kept in memory**: in steps after the second, variables that were
not produced by the step before are forgotten (`checkpointing.py:361-365`).  `J(x) = x⁶` recorded at `x = 2` and
evaluated at `x = 3`. -/
theorem single_memory_gradient_stale :
    ∃ (sch : Schedule) (h : Heap Int Int Int) (es : List (Event Int Int Int)) (τ : CTape Int Int Int),
      Recorded sch h es τ ∧ sch.Reverses ∧ τ.mgr.mode ≠ .record ∧
      (computeGradient (Event.blocks es) 3 [0] 1 (rfEval (Event.blocks es) [0] [3] h)).1 = [1458] ∧
      callThenDerivative 3 3 τ ≠ some (729, [1458]) := by
  refine ⟨singleMemory3, freshHeap [2, 4, 16, 64], exSixth, _,
    recorded_of singleMemory3_wellFormed exSixth_wf (by decide +kernel), singleMemory3_reverses, by decide +kernel, by decide +kernel, by decide +kernel⟩

end CTape
end Pyadjoint
