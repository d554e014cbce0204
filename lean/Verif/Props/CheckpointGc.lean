import Verif.Props.CheckpointGradient

/-!
# C49: the garbage collection frequency; C27: an adjoint evaluation that fails
-/

namespace Pyadjoint
namespace CTape

variable {V T A : Type*}

/-- The same tape with another garbage collection frequency. -/
def setGc (g : Option Int) (τ : CTape V T A) : CTape V T A := { τ with mgr := { τ.mgr with gcFreq := g } }

/-- Apply a function to the result of a call that may raise. -/
def onOk {α β : Type*} (f : α → β) : Except CkptError α → Except CkptError β
  | .error e => .error e
  | .ok a => .ok (f a)

section
variable {g : Option Int}

theorem storeEnded_gc (t : Nat) (ss sa : Bool) (τ : CTape V T A) :
    storeEnded t ss sa (setGc g τ) = onOk (setGc g) (storeEnded t ss sa τ) := by
  unfold storeEnded
  show (match τ.steps[t - 1]? with | none => _ | some s => _) = _
  cases τ.steps[t - 1]? <;> rfl

theorem storeEnded_gcFreq {t : Nat} {ss sa : Bool} {τ τ' : CTape V T A} (h : storeEnded t ss sa τ = .ok τ') :
    τ'.mgr.gcFreq = τ.mgr.gcFreq := by
  unfold storeEnded at h
  split at h
  · cases h
  · cases h; rfl

theorem tapingForward_gc (hg : g ≠ some 0) (n0 : Nat) (n1 : Option Nat) (wi wa : Bool) (st : Storage) (t : Nat)
    (τ : CTape V T A) (hτ : τ.mgr.gcFreq ≠ some 0) :
    tapingForward n0 n1 wi wa st t (setGc g τ) = onOk (fun r => (r.1, setGc g r.2)) (tapingForward n0 n1 wi wa st t τ) := by
  unfold tapingForward
  have tail : ∀ τ₁ : CTape V T A, τ₁.mgr.gcFreq ≠ some 0 →
      (if gcRaises (setGc g τ₁).mgr then (.error .zeroDivision : Except CkptError (Bool × CTape V T A)) else
        if inForward n0 n1 t && ltTotal t (setGc g τ₁).mgr.total then .ok (true, (setGc g τ₁).appendStep)
        else .ok (false, setGc g τ₁)) =
      onOk (fun r => (r.1, setGc g r.2)) (if gcRaises τ₁.mgr then .error .zeroDivision else
        if inForward n0 n1 t && ltTotal t τ₁.mgr.total then .ok (true, τ₁.appendStep) else .ok (false, τ₁)) := by
    intro τ₁ h₁
    have e1 : gcRaises (setGc g τ₁).mgr = false := decide_eq_false hg
    have e2 : gcRaises τ₁.mgr = false := decide_eq_false h₁
    rw [e1, e2]
    simp only [Bool.false_eq_true, if_false]
    show (if inForward n0 n1 t && ltTotal t τ₁.mgr.total then _ else _) = _
    split <;> rfl
  split
  · rfl
  · dsimp only
    by_cases hc : n0 < t ∧ st ≠ .work
    · rw [if_pos hc, if_pos hc]
      have e : storeEnded t (wi && decide (t = n0 + 1)) wa { setGc g τ with eager := wa } =
          onOk (setGc g) (storeEnded t (wi && decide (t = n0 + 1)) wa { τ with eager := wa }) :=
        storeEnded_gc t _ wa { τ with eager := wa }
      rw [e]
      cases hs : storeEnded t (wi && decide (t = n0 + 1)) wa { τ with eager := wa } with
      | error e => rfl
      | ok τ₁ =>
        refine tail τ₁ ?_
        rw [storeEnded_gcFreq hs]; exact hτ
    · rw [if_neg hc, if_neg hc]
      exact tail { τ with eager := wa } hτ

theorem processTaping_gc (hg : g ≠ some 0) (a : Action) (t : Nat) (τ : CTape V T A)
    (hτ : τ.mgr.gcFreq ≠ some 0) :
    processTaping a t (setGc g τ) = onOk (fun r => (r.1, setGc g r.2)) (processTaping a t τ) := by
  cases a with
  | forward n0 n1 wi wa st => exact tapingForward_gc hg n0 n1 wi wa st t τ hτ
  | endForward =>
    simp only [processTaping]
    show (if some t ≠ τ.mgr.total then _ else _) = _
    split <;> rfl
  | _ => rfl

theorem processTaping_gcFreq {a : Action} {t : Nat} {τ : CTape V T A} {r : Bool × CTape V T A}
    (h : processTaping a t τ = .ok r) : r.2.mgr.gcFreq = τ.mgr.gcFreq := by
  cases a with
  | forward n0 n1 wi wa st =>
    simp only [processTaping, tapingForward] at h
    split at h
    · cases h
    · split at h
      · cases h
      · rename_i τ₁ h₁
        have h2 : τ₁.mgr.gcFreq = τ.mgr.gcFreq := by
          split at h₁
          · exact (storeEnded_gcFreq h₁ : τ₁.mgr.gcFreq = _)
          · cases h₁; rfl
        split at h
        · cases h
        · split at h <;> (cases h; exact h2)
  | endForward =>
    simp only [processTaping] at h
    split at h
    · cases h
    · cases h; rfl
  | _ => cases h

theorem endTimestepLoop_gc (hg : g ≠ some 0) (t : Nat) (acts : List Action) (τ : CTape V T A)
    (hτ : τ.mgr.gcFreq ≠ some 0) :
    endTimestepLoop t acts (setGc g τ) = onOk (setGc g) (endTimestepLoop t acts τ) ∧
    ∀ τ', endTimestepLoop t acts τ = .ok τ' → τ'.mgr.gcFreq ≠ some 0 := by
  induction acts generalizing τ with
  | nil =>
    unfold endTimestepLoop
    have e : processTaping (setGc g τ).mgr.current t (setGc g τ) = _ :=
      processTaping_gc hg τ.mgr.current t τ hτ
    rw [e]
    cases h : processTaping τ.mgr.current t τ with
    | error e => exact ⟨rfl, fun _ h => by cases h⟩
    | ok r =>
      have hq := processTaping_gcFreq h
      obtain ⟨b, τ₁⟩ := r
      cases b with
      | true => exact ⟨rfl, fun _ h => by cases h; show τ₁.mgr.gcFreq ≠ _; rw [hq]; exact hτ⟩
      | false => exact ⟨rfl, fun _ h => by cases h⟩
  | cons a acts ih =>
    unfold endTimestepLoop
    have e : processTaping (setGc g τ).mgr.current t (setGc g τ) = _ :=
      processTaping_gc hg τ.mgr.current t τ hτ
    rw [e]
    cases h : processTaping τ.mgr.current t τ with
    | error e => exact ⟨rfl, fun _ h => by cases h⟩
    | ok r =>
      have hq := processTaping_gcFreq h
      obtain ⟨b, τ₁⟩ := r
      cases b with
      | true => exact ⟨rfl, fun _ h => by cases h; show τ₁.mgr.gcFreq ≠ _; rw [hq]; exact hτ⟩
      | false =>
        have := ih { τ₁ with mgr := { τ₁.mgr with current := a, fwd := τ₁.mgr.fwd ++ [a] } }
          (by show τ₁.mgr.gcFreq ≠ _; rw [hq]; exact hτ)
        exact ⟨this.1, this.2⟩

theorem mgrEndTimestep_gc (hg : g ≠ some 0) (t : Nat) (τ : CTape V T A) (hτ : τ.mgr.gcFreq ≠ some 0) :
    mgrEndTimestep t (setGc g τ) = onOk (setGc g) (mgrEndTimestep t τ) ∧
    ∀ τ', mgrEndTimestep t τ = .ok τ' → τ'.mgr.gcFreq ≠ some 0 := by
  unfold mgrEndTimestep
  show (if τ.mgr.mode = .evaluated then _ else if τ.mgr.mode ≠ .record then _ else
    endTimestepLoop t τ.mgr.acts (setGc g τ)) = _ ∧ _
  split
  · exact ⟨rfl, fun _ h => by cases h⟩
  · split
    · exact ⟨rfl, fun _ h => by cases h⟩
    · exact endTimestepLoop_gc hg t _ τ hτ

theorem endTapingLoop_gc (hg : g ≠ some 0) (fuel t : Nat) (τ : CTape V T A) (hτ : τ.mgr.gcFreq ≠ some 0) :
    endTapingLoop fuel t (setGc g τ) = onOk (setGc g) (endTapingLoop fuel t τ) ∧
    ∀ τ', endTapingLoop fuel t τ = .ok τ' → τ'.mgr.gcFreq ≠ some 0 := by
  induction fuel generalizing t τ with
  | zero =>
    unfold endTapingLoop
    show (if τ.mgr.mode = .evaluated then _ else _) = _ ∧ _
    split
    · exact ⟨rfl, fun _ h => by cases h; exact hτ⟩
    · exact ⟨rfl, fun _ h => by cases h⟩
  | succ fuel ih =>
    unfold endTapingLoop
    show (if τ.mgr.mode = .evaluated then _ else _) = _ ∧ _
    split
    · exact ⟨rfl, fun _ h => by cases h; exact hτ⟩
    · obtain ⟨e1, e2⟩ := mgrEndTimestep_gc hg t τ hτ
      dsimp only
      rw [e1]
      cases h : mgrEndTimestep t τ with
      | error e => exact ⟨rfl, fun _ h => by cases h⟩
      | ok τ₁ => exact ih (t + 1) τ₁ (e2 τ₁ h)

theorem recordBlock_gc (b : Block V T A) (τ : CTape V T A) :
    (setGc g τ).recordBlock b = setGc g (τ.recordBlock b) := by
  have hd : ∀ (l : List BV) (τ : CTape V T A),
      l.foldl (fun τ v => τ.depend v) (setGc g τ) = setGc g (l.foldl (fun τ v => τ.depend v) τ) := by
    intro l
    induction l with
    | nil => exact fun _ => rfl
    | cons v l ih => exact fun τ => ih (τ.depend v)
  have ho : ∀ (l : List BV) (τ : CTape V T A),
      l.foldl (fun τ v => τ.output v) (setGc g τ) = setGc g (l.foldl (fun τ v => τ.output v) τ) := by
    intro l
    induction l with
    | nil => exact fun _ => rfl
    | cons v l ih => exact fun τ => ih (τ.output v)
  unfold recordBlock
  rw [hd]
  exact ho b.outs (addBlock b (b.deps.foldl (fun τ v => τ.depend v) τ))

theorem recordBlock_gcFreq (b : Block V T A) (τ : CTape V T A) :
    (τ.recordBlock b).mgr.gcFreq = τ.mgr.gcFreq := by rw [(recordBlock_frame b τ).1]

theorem recording_gc (hg : g ≠ some 0) (es : List (Event V T A)) (τ : CTape V T A)
    (hτ : τ.mgr.gcFreq ≠ some 0) :
    recording es (setGc g τ) = onOk (setGc g) (recording es τ) ∧
    ∀ τ', recording es τ = .ok τ' → τ'.mgr.gcFreq ≠ some 0 := by
  induction es generalizing τ with
  | nil => exact ⟨rfl, fun _ h => by simp only [recording, List.foldlM_nil] at h; cases h; exact hτ⟩
  | cons e es ih =>
    rw [recording_cons, recording_cons]
    cases e with
    | block b =>
      simp only [event]
      rw [recordBlock_gc]
      exact ih _ (by rw [recordBlock_gcFreq]; exact hτ)
    | endTimestep =>
      simp only [event]
      obtain ⟨e1, e2⟩ := mgrEndTimestep_gc hg (τ.latest + 1) τ hτ
      have e1' : (setGc g τ).endTimestep = onOk (setGc g) τ.endTimestep := e1
      rw [e1']
      cases h : τ.endTimestep with
      | error e => exact ⟨rfl, fun _ h => by cases h⟩
      | ok τ₁ => exact ih τ₁ (e2 τ₁ h)

theorem finishTaping_gc (hg : g ≠ some 0) (τ : CTape V T A) (hτ : τ.mgr.gcFreq ≠ some 0) :
    finishTaping (setGc g τ) = onOk (setGc g) (finishTaping τ) ∧
    ∀ τ', finishTaping τ = .ok τ' → τ'.mgr.gcFreq ≠ some 0 := by
  unfold finishTaping
  show (if τ.mgr.mode = .record then _ else _) = _ ∧ _
  split
  · unfold endTaping
    dsimp only
    have hf : (setGc g τ).finalize = setGc g τ.finalize := by
      unfold finalize
      show (if τ.mgr.maxN = 0 then _ else _) = _
      split <;> rfl
    have hf' : τ.finalize.mgr.gcFreq ≠ some 0 := by
      unfold finalize
      split
      · exact hτ
      · exact hτ
    rw [hf]
    exact endTapingLoop_gc hg _ _ τ.finalize hf'
  · exact ⟨rfl, fun _ h => by cases h; exact hτ⟩

theorem foldlM_gc {α : Type*} {f : CTape V T A → α → Except CkptError (CTape V T A)}
    (hf : ∀ τ a, f (setGc g τ) a = onOk (setGc g) (f τ a)) (l : List α) (τ : CTape V T A) :
    l.foldlM f (setGc g τ) = onOk (setGc g) (l.foldlM f τ) := by
  induction l generalizing τ with
  | nil => rfl
  | cons a l ih =>
    rw [List.foldlM_cons, List.foldlM_cons, hf]
    cases f τ a with
    | error e => rfl
    | ok τ₁ => exact ih τ₁

theorem forwardStep_gc (k : Nat) (first wi wa : Bool) (st : Storage) (keepJ : List BV) (τ : CTape V T A) :
    forwardStep k first wi wa st keepJ (setGc g τ) = onOk (setGc g) (forwardStep k first wi wa st keepJ τ) := by
  unfold forwardStep
  show (match τ.steps[k]? with | none => _ | some s => _) = _
  cases τ.steps[k]? with
  | none => rfl
  | some s =>
    dsimp only
    show (if ltTotal (k + 1) τ.mgr.total ∧ τ.steps.length ≤ k + 1 then _ else _) = _
    split <;> rfl

theorem forwardSteps_gc (n0 : Nat) (wi wa : Bool) (st : Storage) (keepJ : List BV) (n k : Nat) (τ : CTape V T A) :
    forwardSteps n0 wi wa st keepJ n k (setGc g τ) = onOk (setGc g) (forwardSteps n0 wi wa st keepJ n k τ) := by
  induction n generalizing k τ with
  | zero => rfl
  | succ n ih =>
    unfold forwardSteps
    rw [forwardStep_gc]
    cases forwardStep k (decide (k = n0)) wi wa st keepJ τ with
    | error e => rfl
    | ok τ₁ => exact ih (k + 1) τ₁

theorem process_gc [Add A] (m : Bool) (keepJ : List BV) (τ : CTape V T A) (a : Action) :
    process m keepJ (setGc g τ) a = onOk (setGc g) (process m keepJ τ a) := by
  cases a with
  | forward n0 n1 wi wa st => exact forwardSteps_gc n0 wi wa st keepJ _ n0 τ
  | reverse n1 n0 clear =>
    refine foldlM_gc (fun τ k => ?_) _ τ
    unfold reverseStep
    show (match τ.steps[k]? with | none => _ | some s => _) = _
    cases τ.steps[k]? <;> rfl
  | copy n src =>
    simp only [process]
    show (match τ.steps[n]? with | none => _ | some s => _) = _
    cases τ.steps[n]? <;> rfl
  | move n src =>
    simp only [process]
    show (match τ.steps[n]? with | none => _ | some s => _) = _
    cases τ.steps[n]? <;> rfl
  | endForward => rfl
  | endReverse => rfl

theorem perform_gc [Add A] (m : Bool) (keepJ : List BV) (τ : CTape V T A) (a : Action) :
    perform m keepJ (setGc g τ) a = onOk (setGc g) (perform m keepJ τ a) :=
  process_gc m keepJ { τ with mgr := { τ.mgr with current := a } } a

theorem recomputeTape_gc [Add A] (hg : g ≠ some 0) (keepJ : List BV) (τ : CTape V T A)
    (hτ : τ.mgr.gcFreq ≠ some 0) :
    recomputeTape keepJ (setGc g τ) = onOk (setGc g) (recomputeTape keepJ τ) := by
  unfold recomputeTape
  rw [(finishTaping_gc hg τ hτ).1]
  cases finishTaping τ with
  | error e => rfl
  | ok τ₁ =>
    show forwardSweep keepJ (setGc g { τ₁ with mgr := { τ₁.mgr with mode := .recompute } }) =
      onOk (setGc g) (forwardSweep keepJ { τ₁ with mgr := { τ₁.mgr with mode := .recompute } })
    generalize ({ τ₁ with mgr := { τ₁.mgr with mode := .recompute } } : CTape V T A) = τ₂
    unfold forwardSweep
    have hf : (setGc g τ₂).mgr.fwd = τ₂.mgr.fwd := rfl
    have hs : (setGc g τ₂).steps = τ₂.steps := rfl
    have hh : (setGc g τ₂).heap = τ₂.heap := rfl
    simp only [hf, hs]
    cases hfw : τ₂.mgr.fwd with
    | nil => rfl
    | cons a fwd =>
      cases a with
      | forward n0 n1 wi wa st =>
        dsimp only
        cases τ₂.steps[n0]? with
        | none => rfl
        | some s => exact foldlM_gc (fun τ a => perform_gc false keepJ τ a) _ { τ₂ with heap := s.restore τ₂.heap }
      | _ => rfl

theorem firstReverse_gc [Add A] (m : Bool) (acts : List Action) (τ : CTape V T A) :
    firstReverse m acts (setGc g τ) = onOk (setGc g) (firstReverse m acts τ) := by
  induction acts generalizing τ with
  | nil =>
    unfold firstReverse
    show (if τ.mgr.current = .endReverse then _ else _) = _
    split <;> rfl
  | cons a acts ih =>
    unfold firstReverse
    show (if τ.mgr.current = .endReverse then _ else _) = _
    split
    · rfl
    · dsimp only
      have e := perform_gc (g := g) m [] { τ with mgr := { τ.mgr with rev := τ.mgr.rev ++ [a] } } a
      have e' : perform m [] { setGc g τ with mgr := { (setGc g τ).mgr with rev := (setGc g τ).mgr.rev ++ [a] } } a
        = _ := e
      rw [e']
      cases perform m [] { τ with mgr := { τ.mgr with rev := τ.mgr.rev ++ [a] } } a with
      | error e => rfl
      | ok τ₁ => exact ih τ₁

theorem evaluateAdjTape_gc [Add A] (hg : g ≠ some 0) (m : Bool) (τ : CTape V T A)
    (hτ : τ.mgr.gcFreq ≠ some 0) :
    evaluateAdjTape m (setGc g τ) = onOk (setGc g) (evaluateAdjTape m τ) := by
  unfold evaluateAdjTape
  rw [(finishTaping_gc hg τ hτ).1]
  cases finishTaping τ with
  | error e => rfl
  | ok τ₁ =>
    dsimp only [onOk]
    show (if canReverse τ₁ = false then _ else _) = _
    split
    · rfl
    · have e : reverseSweep m (setGc g τ₁) = onOk (setGc g) (reverseSweep m τ₁) := by
        unfold reverseSweep
        show (if τ₁.mgr.rev ≠ [] then _ else _) = _
        split
        · exact foldlM_gc (fun τ a => process_gc m [] τ a) _ τ₁
        · exact firstReverse_gc m _ τ₁
      rw [e]
      cases reverseSweep m τ₁ with
      | error e => rfl
      | ok τ₂ => rfl

end

/-! ## C49 -/

/-- What a user does with a checkpointed tape: the values and derivatives obtained, in order. -/
inductive Use (V A : Type*)
  | call (J : BV) (cs : List BV) (scale : V) (xs : List V)
  | derivative (J : BV) (cs : List BV) (adjInput : A)

/-- What is returned. -/
inductive Result (V A : Type*)
  | value (y : V)
  | gradient (ds : List A)
  | raised (e : CkptError)

/-- Use the tape; an exception ends the use. -/
def run [Add A] [Zero A] [Mul V] (truthy : V → Bool) : List (Use V A) → CTape V T A → List (Result V A)
  | [], _ => []
  | .call J cs scale xs :: us, τ =>
    match rfCall truthy J cs scale xs τ with
    | .error e => [.raised e]
    | .ok (y, τ) => .value y :: run truthy us τ
  | .derivative J cs a :: us, τ =>
    match rfDerivative J cs a τ with
    | .error e => [.raised e]
    | .ok (ds, τ) => .gradient ds :: run truthy us τ

/-- Enable checkpointing with a frequency, record, use. -/
def session [Add A] [Zero A] [Mul V] (truthy : V → Bool) (sch : Schedule) (gc : Option Int) (pk : Bool)
    (h : Heap V T A) (es : List (Event V T A)) (us : List (Use V A)) : List (Result V A) :=
  match enable sch gc pk h [] false with
  | .error e => [.raised e]
  | .ok τ =>
    match recording es τ with
    | .error e => [.raised e]
    | .ok τ => run truthy us τ

theorem setGc_self (τ : CTape V T A) : setGc τ.mgr.gcFreq τ = τ := rfl

theorem run_gc [Add A] [Zero A] [Mul V] {truthy : V → Bool} {g : Option Int} (hg : g ≠ some 0)
    (us : List (Use V A)) (τ : CTape V T A) (hτ : τ.mgr.gcFreq ≠ some 0) :
    run truthy us (setGc g τ) = run truthy us τ := by
  -- results keep the frequency of the argument, by commutation with setting it to what it is
  have keep : ∀ {α : Type _} (F : CTape V T A → Except CkptError α) (p : α → CTape V T A) (q : Option Int → α → α),
      (∀ g τ, g ≠ some 0 → τ.mgr.gcFreq ≠ some 0 → F (setGc g τ) = onOk (q g) (F τ)) →
      (∀ g a, (p (q g a)).mgr.gcFreq = g) → ∀ τ a, τ.mgr.gcFreq ≠ some 0 → F τ = .ok a → (p a).mgr.gcFreq ≠ some 0 := by
    intro α F p q h1 h2 τ a hτ hF
    have := h1 τ.mgr.gcFreq τ hτ hτ
    rw [setGc_self, hF] at this
    simp only [onOk, Except.ok.injEq] at this
    rw [this, h2]
    exact hτ
  have hcall : ∀ (J : BV) (cs : List BV) (scale : V) (xs : List V) (g : Option Int) (τ : CTape V T A), g ≠ some 0 →
      τ.mgr.gcFreq ≠ some 0 → rfCall truthy J cs scale xs (setGc g τ) =
        onOk (fun r => (r.1, setGc g r.2)) (rfCall truthy J cs scale xs τ) := by
    intro J cs scale xs g τ hg hτ
    unfold rfCall
    dsimp only
    have e := recomputeTape_gc (A := A) hg
      ((τ.onHeap fun h => markControls cs true (updateControls cs xs h)).keepFunctional truthy J)
      (τ.onHeap fun h => markControls cs true (updateControls cs xs h)) hτ
    have e' : recomputeTape (((setGc g τ).onHeap fun h => markControls cs true (updateControls cs xs h)).keepFunctional
      truthy J) ((setGc g τ).onHeap fun h => markControls cs true (updateControls cs xs h)) = _ := e
    rw [e']
    cases recomputeTape ((τ.onHeap fun h => markControls cs true (updateControls cs xs h)).keepFunctional truthy J)
      (τ.onHeap fun h => markControls cs true (updateControls cs xs h)) <;> rfl
  have hder : ∀ (J : BV) (cs : List BV) (a : A) (g : Option Int) (τ : CTape V T A), g ≠ some 0 →
      τ.mgr.gcFreq ≠ some 0 → rfDerivative J cs a (setGc g τ) =
        onOk (fun r => (r.1, setGc g r.2)) (rfDerivative J cs a τ) := by
    intro J cs a g τ hg hτ
    unfold rfDerivative
    have e := evaluateAdjTape_gc (A := A) hg true (τ.onHeap (seedAdjoint J cs a τ.blocks)) hτ
    have e' : evaluateAdjTape true ((setGc g τ).onHeap (seedAdjoint J cs a (setGc g τ).blocks)) = _ := e
    rw [e']
    cases evaluateAdjTape true (τ.onHeap (seedAdjoint J cs a τ.blocks)) <;> rfl
  induction us generalizing τ with
  | nil => rfl
  | cons u us ih =>
    cases u with
    | call J cs scale xs =>
      unfold run
      rw [hcall J cs scale xs g τ hg hτ]
      cases h : rfCall truthy J cs scale xs τ with
      | error e => rfl
      | ok r =>
        show _ :: run truthy us (setGc g r.2) = _ :: run truthy us r.2
        rw [ih r.2 (keep (rfCall truthy J cs scale xs) (·.2) (fun g r => (r.1, setGc g r.2))
          (fun g τ => hcall J cs scale xs g τ) (fun _ _ => rfl) τ r hτ h)]
    | derivative J cs a =>
      unfold run
      rw [hder J cs a g τ hg hτ]
      cases h : rfDerivative J cs a τ with
      | error e => rfl
      | ok r =>
        show _ :: run truthy us (setGc g r.2) = _ :: run truthy us r.2
        rw [ih r.2 (keep (rfDerivative J cs a) (·.2) (fun g r => (r.1, setGc g r.2))
          (fun g τ => hder J cs a g τ) (fun _ _ => rfl) τ r hτ h)]

/-- **C49** (partial: zero is excluded, see `zero_frequency_raises`): for every schedule, recording and use, the
frequency changes nothing that is returned or raised. -/
theorem gc_frequency_irrelevant_partial [Add A] [Zero A] [Mul V] (truthy : V → Bool) (sch : Schedule)
    {g g' : Option Int} (hg : g ≠ some 0) (hg' : g' ≠ some 0) (pk : Bool) (h : Heap V T A)
    (es : List (Event V T A)) (us : List (Use V A)) :
    session truthy sch g pk h es us = session truthy sch g' pk h es us := by
  have main : ∀ g : Option Int, g ≠ some 0 →
      session truthy sch g pk h es us = session truthy sch none pk h es us := by
    intro g hg
    have hen : enable sch g pk h [] false = onOk (setGc g) (enable sch none pk h [] false) ∧
        ∀ τ, enable sch none pk h [] false = .ok τ → τ.mgr.gcFreq ≠ some 0 := by
      unfold enable
      split
      · exact ⟨rfl, fun _ h => by cases h⟩
      · split
        · exact ⟨rfl, fun _ h => by cases h⟩
        · cases sch.acts with
          | nil => exact ⟨rfl, fun _ h => by cases h⟩
          | cons a acts =>
            exact mgrEndTimestep_gc hg 0
              { heap := h, steps := [], eager := false,
                mgr := {
                  acts := acts, maxN := sch.maxN, afterFinal := sch.afterFinal, singleMem := sch.singleMem,
                  exhausted := sch.exhausted, current := a, fwd := [a],
                  total := if sch.maxN = 0 then none else some sch.maxN, gcFreq := none } } (by simp)
    unfold session
    rw [hen.1]
    cases he : enable sch none pk h [] false with
    | error e => rfl
    | ok τ =>
      obtain ⟨r1, r2⟩ := recording_gc hg es τ (hen.2 τ he)
      show (match recording es (setGc g τ) with | .error e => _ | .ok τ => _) = _
      rw [r1]
      dsimp only
      cases hr : recording es τ with
      | error e => rfl
      | ok τ₁ => exact run_gc hg us τ₁ (r2 τ₁ hr)
  rw [main g hg, main g' hg']

/-- **C49 fails for frequency zero**: enabling raises `ZeroDivisionError` for every schedule that starts with a
forward action from step zero (`checkpointing.py:215`). -/
theorem zero_frequency_raises (sch : Schedule) (n1 : Option Nat) (wi wa : Bool) (st : Storage) (acts : List Action)
    (hs : sch.acts = .forward 0 n1 wi wa st :: acts) (pk : Bool) (hpk : sch.usesDisk = true → pk = true)
    (h : Heap V T A) (eager : Bool) : enable sch (some 0) pk h [] eager = .error .zeroDivision := by
  unfold enable
  rw [if_neg (by simp), if_neg (by
    cases hd : sch.usesDisk with
    | false => simp
    | true => simp [hpk hd]), hs]
  dsimp only
  unfold mgrEndTimestep
  rw [if_neg (by simp), if_neg (by simp)]
  unfold endTimestepLoop
  simp [processTaping, tapingForward, gcRaises]

/-- The argument `gc_timestep_frequency` of a call: absent, an `int` or something else. -/
inductive Frequency
  | absent
  | int (n : Int)
  | other

/-- `Tape.enable_checkpointing` with its checks of the argument (`tape.py:325-335`): the blocks are looked at first.
The other exception stands for the second `CheckpointError`. -/
def enableChecked (sch : Schedule) (f : Frequency) (pk : Bool) (h : Heap V T A) (steps : List (CStep V T A))
    (eager : Bool) : Except (Option CkptError) (CTape V T A) :=
  if steps.flatMap (·.blocks) ≠ [] then .error (some .notEmpty) else
  match f with
  | .other => .error none
  | .absent => match enable sch none pk h steps eager with | .error e => .error (some e) | .ok τ => .ok τ
  | .int n => match enable sch (some n) pk h steps eager with | .error e => .error (some e) | .ok τ => .ok τ

/-- **C49**: whatever the schedule and the state, a frequency that is not an integer is rejected. -/
theorem noninteger_frequency_rejected (sch : Schedule) (pk : Bool) (h : Heap V T A) (steps : List (CStep V T A))
    (eager : Bool) : ∃ e, enableChecked sch .other pk h steps eager = .error e := by
  unfold enableChecked
  split
  · exact ⟨_, rfl⟩
  · exact ⟨_, rfl⟩

/-- Non-vacuity: both theorems apply to a multistage schedule and give results. -/
example : session (V := Int) (T := Int) (A := Int) (fun x => x != 0) multistage2 (some 7) false (freshHeap [2, 4, 16]) exPower
      [.derivative 2 [0] 1] =
    session (fun x => x != 0) multistage2 none false (freshHeap [2, 4, 16]) exPower [.derivative 2 [0] 1] :=
  gc_frequency_irrelevant_partial _ _ (by decide) (by decide) _ _ _ _

example : enable (V := Int) (T := Int) (A := Int) multistage2 (some 0) false (freshHeap [2, 4, 16]) [] false =
    .error .zeroDivision :=
  zero_frequency_raises multistage2 _ _ _ _ _ rfl false (fun h => by cases h) _ _

end CTape
end Pyadjoint
