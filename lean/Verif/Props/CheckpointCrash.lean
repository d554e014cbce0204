import Verif.Props.CheckpointGc

/-!
# C27: an adjoint evaluation under checkpointing that raises

The reverse actions that an adjoint evaluation executes are those kept in `reverse_schedule` if there are any
(`checkpointing.py:283-285`).  They are taken from the schedule one by one in the first evaluation.
-/

namespace Pyadjoint
namespace CTape

variable {V T A : Type*}

/-- A later adjoint evaluation that an exception leaves at the start of action number `k`
(`checkpointing.py:283-285`).  `reduced_functional.py:138-146` and `drivers.py:26-29`: the controls are unmarked, the
path markings stay. -/
def interruptedLater [Add A] (k : Nat) (J : BV) (cs : List BV) (adjInput : A) (τ : CTape V T A) :
    Except CkptError (CTape V T A) :=
  match (τ.mgr.rev.take k).foldlM (process true []) (τ.onHeap (seedAdjoint J cs adjInput τ.blocks)) with
  | .error e => .error e
  | .ok τ' => .ok (τ'.onHeap (markControls cs false))

/-- A first `derivative()` that an exception leaves at the start of action number `k` (see `interruptedLater`). -/
def interruptedFirst [Add A] (k : Nat) (J : BV) (cs : List BV) (adjInput : A) (τ : CTape V T A) :
    Except CkptError (CTape V T A) :=
  match interruptedAdj true k (τ.onHeap (seedAdjoint J cs adjInput τ.blocks)) with
  | .error e => .error e
  | .ok τ' => .ok (τ'.onHeap (markControls cs false))

theorem process_rev [Add A] {m : Bool} {keepJ : List BV} {a : Action} {τ τ' : CTape V T A}
    (h : process m keepJ τ a = .ok τ') : τ'.mgr.rev = τ.mgr.rev := by
  cases a with
  | forward n0 n1 wi wa st =>
    refine forwardSteps_ind (R := fun τ τ' => τ'.mgr.rev = τ.mgr.rev) (fun _ => rfl)
      (fun _ _ _ h h' => h'.trans h) (fun k τ τ' h => ?_) h
    obtain ⟨s, -, -, ⟨b, e⟩, -⟩ := forwardStep_ok h
    rw [e]
  | reverse n1 n0 clear =>
    refine foldlM_ind (R := fun τ τ' => τ'.mgr.rev = τ.mgr.rev) (fun _ => rfl)
      (fun _ _ _ h h' => h'.trans h) _ (fun τ τ' k _ h => ?_) h
    obtain ⟨s, s', -, -, -, -, -, -, -, -, e, -⟩ := reverseStep_ok h
    rw [e]
  | copy n src =>
    simp only [process] at h
    split at h
    · cases h
    · cases h; rfl
  | move n src =>
    simp only [process] at h
    split at h
    · cases h
    · cases h; rfl
  | endForward => cases h; rfl
  | endReverse => cases h; rfl

theorem processes_rev [Add A] {m : Bool} {keepJ : List BV} {l : List Action} {τ τ' : CTape V T A}
    (h : l.foldlM (process m keepJ) τ = .ok τ') : τ'.mgr.rev = τ.mgr.rev :=
  foldlM_ind (R := fun τ τ' => τ'.mgr.rev = τ.mgr.rev) (fun _ => rfl) (fun _ _ _ h h' => h'.trans h) l
    (fun _ _ _ _ h => process_rev h) h

theorem processes_mode [Add A] {m : Bool} {keepJ : List BV} {l : List Action} {τ τ' : CTape V T A}
    (h : l.foldlM (process m keepJ) τ = .ok τ') : τ.mgr.mode ≠ .record → τ'.mgr.mode ≠ .record :=
  foldlM_ind (R := fun τ τ' => τ.mgr.mode ≠ .record → τ'.mgr.mode ≠ .record) (fun _ h => h)
    (fun _ _ _ h h' => h' ∘ h) l (fun _ _ _ _ h => process_mode h) h

theorem forwardSweep_rev [Add A] {keepJ : List BV} {τ τ' : CTape V T A} (h : forwardSweep keepJ τ = .ok τ') :
    τ'.mgr.rev = τ.mgr.rev := by
  unfold forwardSweep at h
  split at h
  · split at h
    · cases h
    · rename_i s _
      exact foldlM_ind (R := fun τ τ' => τ'.mgr.rev = τ.mgr.rev) (fun _ => rfl) (fun _ _ _ h h' => h'.trans h) _
        (fun τ τ' a _ (h : perform false keepJ τ a = .ok τ') => by
          unfold perform at h
          have := process_rev h
          exact this)
        (τ := { τ with heap := s.restore τ.heap }) h
  · cases h

/-- Evaluating the functional does not touch the recorded reverse actions. -/
theorem rfCall_rev [Add A] [Mul V] {truthy : V → Bool} {J : BV} {cs : List BV} {scale : V} {xs : List V}
    {τ τ' : CTape V T A} {y : V} (hm : τ.mgr.mode ≠ .record)
    (h : rfCall truthy J cs scale xs τ = .ok (y, τ')) : τ'.mgr.rev = τ.mgr.rev ∧ τ'.mgr.mode ≠ .record := by
  unfold rfCall at h
  dsimp only at h
  split at h
  · cases h
  · rename_i τ₁ h₁
    simp only [Except.ok.injEq, Prod.mk.injEq] at h
    obtain ⟨-, rfl⟩ := h
    unfold recomputeTape at h₁
    have hft : ∀ τ : CTape V T A, τ.mgr.mode ≠ .record → finishTaping τ = .ok τ := by
      intro τ h
      unfold finishTaping
      rw [if_neg h]
    rw [hft (τ.onHeap fun h => markControls cs true (updateControls cs xs h)) hm] at h₁
    have r1 := forwardSweep_rev h₁
    have r2 := forwardSweep_mode h₁ (show Mode.recompute ≠ Mode.record from Mode.noConfusion)
    exact ⟨r1, r2⟩

theorem firstReverse_rev [Add A] {m : Bool} {acts : List Action} {τ τ' : CTape V T A}
    (hcur : τ.mgr.current ≠ .endReverse) (h : firstReverse m acts τ = .ok τ') :
    τ'.mgr.rev = τ.mgr.rev ++ untilEndReverse acts ∧ .endReverse ∈ acts := by
  induction acts generalizing τ with
  | nil =>
    unfold firstReverse at h
    rw [if_neg hcur] at h
    cases h
  | cons a acts ih =>
    unfold firstReverse at h
    rw [if_neg hcur] at h
    dsimp only at h
    split at h
    · cases h
    · rename_i τ₁ h₁
      have hc₁ : τ₁.mgr.current = a := process_current (by unfold perform at h₁; exact h₁)
      have hr₁ : τ₁.mgr.rev = τ.mgr.rev ++ [a] := process_rev (by unfold perform at h₁; exact h₁)
      unfold untilEndReverse
      by_cases ha : a = .endReverse
      · rw [if_pos ha]
        unfold firstReverse at h
        rw [if_pos (by rw [hc₁]; exact ha)] at h
        cases h
        exact ⟨hr₁, by simp [ha]⟩
      · rw [if_neg ha]
        obtain ⟨e1, e2⟩ := ih (by rw [hc₁]; exact ha) h
        exact ⟨by rw [e1, hr₁]; simp, by simp [e2]⟩

theorem evaluateAdjTape_rev [Add A] {m : Bool} {τ τ' : CTape V T A} (hm : τ.mgr.mode ≠ .record)
    (hr : τ.mgr.rev ≠ []) (h : evaluateAdjTape m τ = .ok τ') : τ'.mgr.rev = τ.mgr.rev ∧ τ'.mgr.mode ≠ .record := by
  unfold evaluateAdjTape at h
  have hft : finishTaping τ = .ok τ := by
    unfold finishTaping
    rw [if_neg hm]
  rw [hft] at h
  dsimp only at h
  split at h
  · cases h
  · split at h
    · cases h
    · rename_i τ₁ h₁
      cases h
      unfold reverseSweep at h₁
      rw [if_pos hr] at h₁
      exact ⟨(processes_rev h₁ : τ₁.mgr.rev = _), Mode.noConfusion⟩

theorem rfDerivative_rev [Add A] [Zero A] {J : BV} {cs : List BV} {a : A} {τ τ' : CTape V T A} {ds : List A}
    (hm : τ.mgr.mode ≠ .record) (hr : τ.mgr.rev ≠ []) (h : rfDerivative J cs a τ = .ok (ds, τ')) :
    τ'.mgr.rev = τ.mgr.rev ∧ τ'.mgr.mode ≠ .record := by
  unfold rfDerivative at h
  split at h
  · cases h
  · rename_i τ₁ h₁
    simp only [Except.ok.injEq, Prod.mk.injEq] at h
    obtain ⟨-, rfl⟩ := h
    have := evaluateAdjTape_rev (τ := τ.onHeap (seedAdjoint J cs a τ.blocks)) hm hr h₁
    exact this

/-! ## C27 -/

/-- **C27 fails for the first evaluation, at every crash point**: whatever the schedule and whatever the state of the
values after the exception, the functional evaluated again, and the derivative taken again, the reverse sweep
executes only the `k + 1` actions that had been taken from the schedule. -/
theorem crash_truncates_schedule [Add A] [Zero A] [Mul V] {truthy : V → Bool} {τ τ₁ τ₁' τ₂ : CTape V T A} {k : Nat}
    {J J' : BV} {cs cs' : List BV} {a : A} {scale y : V} {xs : List V} (hm : τ.mgr.mode ≠ .record)
    (hr : τ.mgr.rev = []) (h₁ : interruptedFirst k J cs a τ = .ok τ₁) (hany : τ₁'.mgr = τ₁.mgr)
    (h₂ : rfCall truthy J' cs' scale xs τ₁' = .ok (y, τ₂)) :
    τ₂.mgr.rev = τ.mgr.acts.take (k + 1) ∧
    ∀ (m : Bool) (τ₃ : CTape V T A), τ₃.mgr.rev = τ₂.mgr.rev → reverseSweep m τ₃ = (τ.mgr.acts.take (k + 1)).foldlM (process m []) τ₃ := by
  have key : τ₂.mgr.rev = τ.mgr.acts.take (k + 1) ∧ τ₂.mgr.rev ≠ [] := by
    unfold interruptedFirst at h₁
    split at h₁
    · cases h₁
    · rename_i τ₀ h₀
      cases h₁
      unfold interruptedAdj at h₀
      have hft : finishTaping (τ.onHeap (seedAdjoint J cs a τ.blocks)) =
          .ok (τ.onHeap (seedAdjoint J cs a τ.blocks)) := by
        unfold finishTaping
        rw [if_neg (show ¬ (τ.onHeap (seedAdjoint J cs a τ.blocks)).mgr.mode = .record from hm)]
      rw [hft] at h₀
      dsimp only at h₀
      split at h₀
      · cases h₀
      · split at h₀
        · cases h₀
        · cases h₀
        · rename_i τ₄ b e₁ e₂
          have hp : ∀ (l : List Action) (τ τ' : CTape V T A), l.foldlM (takeAction (A := A) true) τ = .ok τ' →
              τ'.mgr.rev = τ.mgr.rev ++ l ∧ (τ.mgr.mode ≠ .record → τ'.mgr.mode ≠ .record) := by
            intro l
            induction l with
            | nil => intro τ τ' h; cases h; exact ⟨by simp, id⟩
            | cons a l ih =>
              intro τ τ' h
              rw [List.foldlM_cons] at h
              cases hs : takeAction true τ a with
              | error e => rw [hs] at h; cases h
              | ok τ₁ =>
                rw [hs] at h
                obtain ⟨i1, i2⟩ := ih τ₁ τ' h
                unfold takeAction perform at hs
                refine ⟨?_, fun hm => i2 (process_mode hs hm)⟩
                rw [i1, process_rev hs]
                simp
          obtain ⟨p1, p2⟩ := hp _ _ _ e₁
          cases h₀
          have hlt : τ.mgr.acts.take (k + 1) = τ.mgr.acts.take k ++ [b] := by
            rw [List.take_add_one]
            have : τ.mgr.acts[k]? = some b := e₂
            rw [this]
            rfl
          have hrev : τ₁'.mgr.rev = τ.mgr.acts.take (k + 1) := by
            rw [hany, hlt]
            show τ₄.mgr.rev ++ [b] = _
            rw [p1]
            show (τ.mgr.rev ++ τ.mgr.acts.take k) ++ [b] = _
            rw [hr]
            rfl
          have hm₁ : τ₁'.mgr.mode ≠ .record := by
            rw [hany]
            exact p2 hm
          obtain ⟨r1, -⟩ := rfCall_rev hm₁ h₂
          rw [r1, hrev]
          exact ⟨rfl, by rw [hlt]; simp⟩
  refine ⟨key.1, fun m τ₃ h₃ => ?_⟩
  unfold reverseSweep
  rw [if_pos (by rw [h₃]; exact key.2), h₃, key.1]

/-- Later uses of the tape, including adjoint evaluations that raise. -/
inductive LaterUse [Add A] [Zero A] [Mul V] (truthy : V → Bool) : CTape V T A → CTape V T A → Prop
  | start (τ) : LaterUse truthy τ τ
  | call {τ τ₁ τ₂ : CTape V T A} {J cs scale xs y} : LaterUse truthy τ τ₁ →
      rfCall truthy J cs scale xs τ₁ = .ok (y, τ₂) → LaterUse truthy τ τ₂
  | derivative {τ τ₁ τ₂ : CTape V T A} {J cs a ds} : LaterUse truthy τ τ₁ →
      rfDerivative J cs a τ₁ = .ok (ds, τ₂) → LaterUse truthy τ τ₂
  | raised {τ τ₁ τ₂ τ₃ : CTape V T A} {k J cs a} : LaterUse truthy τ τ₁ →
      interruptedLater k J cs a τ₁ = .ok τ₂ → τ₃.mgr = τ₂.mgr → LaterUse truthy τ τ₃

/-- **C27** (partial: once a first adjoint evaluation has finished).  Then the complete reverse part of the schedule
has been recorded, and after any further evaluations, derivatives and derivatives that raise anywhere, with the
values in any state, a derivative still executes all of it. -/
theorem crash_keeps_schedule_partial [Add A] [Zero A] [Mul V] {truthy : V → Bool} {τ τ₁ τ₂ : CTape V T A}
    {J : BV} {cs : List BV} {a : A} {ds : List A} (hm : τ.mgr.mode ≠ .record) (hr : τ.mgr.rev = [])
    (hcur : τ.mgr.current ≠ .endReverse) (h₁ : rfDerivative J cs a τ = .ok (ds, τ₁)) (hu : LaterUse truthy τ₁ τ₂) :
    τ₂.mgr.rev = untilEndReverse τ.mgr.acts ∧ .endReverse ∈ τ₂.mgr.rev ∧
    ∀ (m : Bool) (τ₃ : CTape V T A), τ₃.mgr.rev = τ₂.mgr.rev → reverseSweep m τ₃ = (untilEndReverse τ.mgr.acts).foldlM (process m []) τ₃ := by
  have hne : ∀ acts : List Action, .endReverse ∈ acts → .endReverse ∈ untilEndReverse acts := by
    intro acts
    induction acts with
    | nil => exact fun h => absurd h (by simp)
    | cons b acts ih =>
      intro h
      unfold untilEndReverse
      split
      · rename_i hb; simp [hb]
      · rename_i hb
        rcases List.mem_cons.1 h with h | h
        · exact absurd h.symm hb
        · simp [ih h]
  have first : τ₁.mgr.rev = untilEndReverse τ.mgr.acts ∧ .endReverse ∈ τ₁.mgr.rev ∧ τ₁.mgr.mode ≠ .record := by
    unfold rfDerivative at h₁
    split at h₁
    · cases h₁
    · rename_i τ₀ h₀
      simp only [Except.ok.injEq, Prod.mk.injEq] at h₁
      obtain ⟨-, rfl⟩ := h₁
      unfold evaluateAdjTape at h₀
      have hft : finishTaping (τ.onHeap (seedAdjoint J cs a τ.blocks)) =
          .ok (τ.onHeap (seedAdjoint J cs a τ.blocks)) := by
        unfold finishTaping
        rw [if_neg (show ¬ (τ.onHeap (seedAdjoint J cs a τ.blocks)).mgr.mode = .record from hm)]
      rw [hft] at h₀
      dsimp only at h₀
      split at h₀
      · cases h₀
      · split at h₀
        · cases h₀
        · rename_i τ₄ h₄
          cases h₀
          unfold reverseSweep at h₄
          rw [if_neg (show ¬ ((τ.onHeap (seedAdjoint J cs a τ.blocks)).mgr.rev ≠ []) from fun h => h hr)] at h₄
          obtain ⟨e1, e2⟩ := firstReverse_rev (τ := τ.onHeap (seedAdjoint J cs a τ.blocks)) hcur h₄
          have e3 : τ₄.mgr.rev = untilEndReverse τ.mgr.acts := by
            rw [e1]
            show τ.mgr.rev ++ _ = _
            rw [hr]
            rfl
          refine ⟨e3, ?_, Mode.noConfusion⟩
          show _ ∈ τ₄.mgr.rev
          rw [e3]
          exact hne _ e2
  have later : τ₂.mgr.rev = τ₁.mgr.rev ∧ τ₂.mgr.mode ≠ .record := by
    have hne₁ : τ₁.mgr.rev ≠ [] := fun h => by
      have := first.2.1
      rw [h] at this
      exact absurd this (by simp)
    have hm₁ := first.2.2
    clear first h₁
    induction hu with
    | start => exact ⟨rfl, hm₁⟩
    | call _ h ih =>
      obtain ⟨i1, i2⟩ := ih
      obtain ⟨j1, j2⟩ := rfCall_rev i2 h
      exact ⟨j1.trans i1, j2⟩
    | derivative _ h ih =>
      obtain ⟨i1, i2⟩ := ih
      obtain ⟨j1, j2⟩ := rfDerivative_rev i2 (by rw [i1]; exact hne₁) h
      exact ⟨j1.trans i1, j2⟩
    | @raised τ₁ τ₂ τ₃ k J cs a _ h e ih =>
      obtain ⟨i1, i2⟩ := ih
      unfold interruptedLater at h
      split at h
      · cases h
      · rename_i τ₀ h₀
        cases h
        rw [e]
        have j1 := processes_rev h₀
        have j2 := processes_mode h₀ i2
        exact ⟨j1.trans i1, j2⟩
  have hrev : τ₂.mgr.rev = untilEndReverse τ.mgr.acts := later.1.trans first.1
  refine ⟨hrev, by rw [later.1]; exact first.2.1, fun m τ₃ h₃ => ?_⟩
  unfold reverseSweep
  have : τ₃.mgr.rev ≠ [] := by
    intro h
    have h2 := first.2.1
    rw [← later.1, ← h₃, h] at h2
    exact absurd h2 (by simp)
  rw [if_pos this, h₃, hrev]

/-! ### Witness of the wrong gradient -/

/-- Everything in memory, one step reversed at a time. -/
def stepwise2 : Schedule where
  acts := [.forward 0 (some 2) false true .work, .endForward, .reverse 2 1 true, .reverse 1 0 true, .endReverse]
  maxN := 2

/-- The first `derivative()` raises at the start of action `k`; then `rf(x)` and `derivative()`. -/
def afterCrash (k : Nat) (J : BV) (x : Int) (τ : CTape Int Int Int) : Option (Int × List Int) :=
  match interruptedFirst k J [0] 1 τ with
  | .error _ => none
  | .ok τ => callThenDerivative J x τ

/-- **C27 fails**: `J(x) = x⁴` is recorded at `x = 2`.  Without the exception, evaluating at `2` again and
differentiating gives `32`; after a first derivative that raised in the first action, evaluating gives the right
value and the derivative is `0`, and no exception tells the user. -/
theorem crash_gradient_wrong :
    (callThenDerivative 2 2 (tapeOf emptyTape (record stepwise2 (freshHeap [2, 4, 16]) exPower)) = some (16, [32])) ∧
    (afterCrash 0 2 2 (tapeOf emptyTape (record stepwise2 (freshHeap [2, 4, 16]) exPower)) = some (16, [0])) := by
  decide +kernel

/-- The recorded tape. -/
def exTape : CTape Int Int Int := tapeOf emptyTape (record stepwise2 (freshHeap [2, 4, 16]) exPower)

/-- Non-vacuity of `crash_truncates_schedule`: the hypotheses hold for `exTape`, and the reverse schedule left has
one action instead of three. -/
example : exTape.mgr.mode ≠ .record ∧ exTape.mgr.rev = [] ∧ exTape.mgr.current ≠ .endReverse ∧
    (match interruptedFirst 0 2 [0] 1 exTape with
      | .error _ => false
      | .ok τ => match rfCall (fun x => x != 0) 2 [0] 1 [2] τ with
        | .error _ => false
        | .ok (_, τ) => decide (τ.mgr.rev = [.reverse 2 1 true])) = true := by
  decide +kernel

/-- Non-vacuity of `crash_keeps_schedule_partial`: a derivative, an evaluation, a derivative that raises in the second
action, an evaluation and a derivative, with the right result. -/
example :
    (match rfDerivative 2 [0] 1 exTape with
      | .error _ => none
      | .ok (_, τ) => match rfCall (fun x => x != 0) 2 [0] 1 [2] τ with
        | .error _ => none
        | .ok (_, τ) => match interruptedLater 1 2 [0] 1 τ with
          | .error _ => none
          | .ok τ => callThenDerivative 2 2 τ) = some (16, [32]) := by
  decide +kernel

end CTape
end Pyadjoint
