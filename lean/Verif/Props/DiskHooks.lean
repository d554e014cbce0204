import Verif.Model.DiskHooks
import Verif.Props.CheckpointGradient

/-!
# Checkpointing on disk (C79)
-/

namespace Pyadjoint
namespace CTape

variable {V T A : Type*}

/-! ## Specification -/

/-- Whether checkpoints are written to disk after these calls, if that was so before them. -/
def onDisk (on : Bool) : List Hook → Bool
  | [] => on
  | .resume :: l => onDisk true l
  | .pause :: l => onDisk false l
  | _ :: l => onDisk on l

/-- What may happen when: values are stored on disk exactly for the actions that say so, everything else happens while values are kept in memory. -/
def Hook.Fits (on : Bool) : Hook → Prop
  | .store _ st => on = decide (st = .disk)
  | .pause => True
  | _ => on = false

/-- At every point what happens fits. -/
def Bracketed (on : Bool) (l : List Hook) : Prop := ∀ p e q, l = p ++ e :: q → e.Fits (onDisk on p)

/-- What is stored, in order: the step and the medium. -/
def stores (l : List Hook) : List (Nat × Storage) :=
  l.filterMap fun
    | .store k st => some (k, st)
    | _ => none

/-- What an action says is to be stored when there are `N` steps: the first of its steps if it writes initial conditions, each if it writes adjoint
dependencies, and nothing if its storage is the working memory. -/
def toStore (N : Nat) : Action → List (Nat × Storage)
  | .forward n0 n1 wi wa st =>
    if st = .work then []
    else ((List.range N).filter fun k => inForward n0 n1 k && ((wi && decide (k = n0)) || wa)).map fun k => (k, st)
  | _ => []

/-! ## Proof -/

theorem onDisk_append (on : Bool) (p q : List Hook) : onDisk on (p ++ q) = onDisk (onDisk on p) q := by
  induction p generalizing on with
  | nil => rfl
  | cons e p ih => cases e <;> exact ih _

theorem bracketed_nil (on : Bool) : Bracketed on [] := fun p e q h => by
  cases p <;> cases h

theorem bracketed_cons {on : Bool} {e : Hook} {l : List Hook} (he : e.Fits on) (h : Bracketed (onDisk on [e]) l) : Bracketed on (e :: l) := by
  intro p e' q hp
  cases p with
  | nil =>
    cases hp
    exact he
  | cons x p =>
    injection hp with h1 h2
    subst h1
    have := h p e' q h2
    rwa [← onDisk_append] at this

theorem bracketed_append {on : Bool} {l l' : List Hook} (h : Bracketed on l) (h' : Bracketed (onDisk on l) l') : Bracketed on (l ++ l') := by
  induction l generalizing on with
  | nil => exact h'
  | cons e l ih =>
    refine bracketed_cons (h [] e l rfl) (ih (fun p e' q hp => ?_) ?_)
    · have := h (e :: p) e' q (by rw [hp]; rfl)
      rwa [show (e :: p) = [e] ++ p from rfl, onDisk_append] at this
    · rwa [← onDisk_append]

/-- Fits from a state in which values are kept in memory and, without exception, ends in such a state. -/
def Closed (ok : Prop) (l : List Hook) : Prop := Bracketed false l ∧ (ok → onDisk false l = false)

theorem Closed.mono {ok ok' : Prop} {l : List Hook} (h : Closed ok l) (hok : ok' → ok) : Closed ok' l := ⟨h.1, fun h' => h.2 (hok h')⟩

theorem closed_nil (ok : Prop) : Closed ok [] := ⟨bracketed_nil _, fun _ => rfl⟩

theorem closed_one (ok : Prop) {e : Hook} (h : e.Fits false) (h' : onDisk false [e] = false) : Closed ok [e] :=
  ⟨bracketed_cons h (bracketed_nil _), fun _ => h'⟩

theorem Closed.append {ok ok' : Prop} {l l' : List Hook} (h : Closed ok l) (hok : ok) (h' : Closed ok' l') : Closed ok' (l ++ l') := by
  have e := h.2 hok
  refine ⟨bracketed_append h.1 (by rw [e]; exact h'.1), fun hh => ?_⟩
  rw [onDisk_append, e]
  exact h'.2 hh

theorem Closed.append_nil {ok ok' : Prop} {l : List Hook} (h : Closed ok l) (hok : ok' → ok) : Closed ok' (l ++ []) := by
  rw [List.append_nil]
  exact h.mono hok

/-- The operation returned. -/
def Returned {S : Type*} (r : Except CkptError S) : Prop := ∃ s, r = .ok s

theorem closed_store (ok : Prop) (k : Nat) (a b : Bool) (st : Storage) : Closed ok (storeHooks k a b st ++ pauseHooks st) := by
  unfold storeHooks pauseHooks
  by_cases hd : st = .disk
  · subst hd
    by_cases h : (a || b) = true
    · simp only [h, if_true]
      refine ⟨bracketed_cons rfl (bracketed_cons rfl (bracketed_cons trivial (bracketed_nil _))), fun _ => rfl⟩
    · simp only [h]
      exact ⟨bracketed_cons trivial (bracketed_nil _), fun _ => rfl⟩
  · simp only [hd, if_false, List.append_nil, List.nil_append]
    by_cases h : (a || b) = true
    · simp only [h, if_true]
      exact ⟨bracketed_cons (by simp [Hook.Fits, hd]) (bracketed_nil _), fun _ => rfl⟩
    · simp only [h]
      exact closed_nil _

theorem closed_pause (ok : Prop) (st : Storage) : Closed ok (pauseHooks st) := by
  unfold pauseHooks
  split
  · exact ⟨bracketed_cons trivial (bracketed_nil _), fun _ => rfl⟩
  · exact closed_nil _

theorem closed_taping (n0 : Nat) (n1 : Option Nat) (wi wa : Bool) (st : Storage) (t : Nat) (τ : CTape V T A) :
    Closed (Returned (tapingForward n0 n1 wi wa st t τ)) (tapingHooks n0 wi wa st t τ) := by
  unfold tapingHooks
  by_cases h0 : t < n0
  · rw [if_pos h0]; exact closed_nil _
  rw [if_neg h0]
  by_cases h1 : n0 < t ∧ st ≠ .work
  · rw [if_pos h1]
    cases hs : τ.steps[t - 1]? with
    | none =>
      refine ⟨?_, fun ⟨r, hr⟩ => ?_⟩
      · dsimp only
        split
        · exact bracketed_cons rfl (bracketed_nil _)
        · exact bracketed_nil _
      · exfalso
        unfold tapingForward at hr
        rw [if_neg h0] at hr
        dsimp only at hr
        rw [if_pos h1] at hr
        unfold storeEnded at hr
        simp only [hs] at hr
        cases hr
    | some s => exact closed_store _ _ _ _ _
  · rw [if_neg h1]; exact closed_pause _ _

theorem closed_processTaping (a : Action) (t : Nat) (τ : CTape V T A) : Closed (Returned (processTaping a t τ)) (processTapingHooks a t τ) := by
  cases a with
  | forward n0 n1 wi wa st => exact closed_taping n0 n1 wi wa st t τ
  | _ => exact closed_nil _

theorem closed_endTimestepLoop (t : Nat) (acts : List Action) (τ : CTape V T A) :
    Closed (Returned (endTimestepLoop t acts τ)) (endTimestepLoopHooks t acts τ) := by
  induction acts generalizing τ with
  | nil =>
    unfold endTimestepLoop endTimestepLoopHooks
    have h := closed_processTaping τ.mgr.current t τ
    cases hp : processTaping τ.mgr.current t τ with
    | error e => exact h.append_nil (fun ⟨_, h'⟩ => by cases h')
    | ok r =>
      obtain ⟨b, τ'⟩ := r
      cases b with
      | true => exact h.append_nil (fun _ => ⟨_, hp⟩)
      | false => exact h.append_nil (fun ⟨_, h'⟩ => by cases h')
  | cons a acts ih =>
    unfold endTimestepLoop endTimestepLoopHooks
    have h := closed_processTaping τ.mgr.current t τ
    cases hp : processTaping τ.mgr.current t τ with
    | error e => exact h.append_nil (fun ⟨_, h'⟩ => by cases h')
    | ok r =>
      obtain ⟨b, τ'⟩ := r
      cases b with
      | true => exact h.append_nil (fun _ => ⟨_, hp⟩)
      | false => exact h.append ⟨_, hp⟩ (ih _)

theorem closed_mgrEndTimestep (t : Nat) (τ : CTape V T A) : Closed (Returned (mgrEndTimestep t τ)) (mgrEndTimestepHooks t τ) := by
  unfold mgrEndTimestep mgrEndTimestepHooks
  by_cases h1 : τ.mgr.mode = .evaluated
  · rw [if_pos h1, if_pos h1]; exact closed_nil _
  rw [if_neg h1, if_neg h1]
  by_cases h2 : τ.mgr.mode ≠ .record
  · rw [if_pos h2, if_pos h2]; exact closed_nil _
  rw [if_neg h2, if_neg h2]
  exact closed_endTimestepLoop _ _ _

theorem closed_endTapingLoop (fuel t : Nat) (τ : CTape V T A) : Closed (Returned (endTapingLoop fuel t τ)) (endTapingLoopHooks fuel t τ) := by
  induction fuel generalizing t τ with
  | zero =>
    unfold endTapingLoopHooks
    split <;> exact closed_nil _
  | succ n ih =>
    unfold endTapingLoop endTapingLoopHooks
    by_cases h1 : τ.mgr.mode = .evaluated
    · rw [if_pos h1, if_pos h1]; exact closed_nil _
    rw [if_neg h1, if_neg h1]
    have h := closed_mgrEndTimestep t τ
    dsimp only
    cases hp : mgrEndTimestep t τ with
    | error e => exact h.append_nil (fun ⟨_, h'⟩ => by cases h')
    | ok τ' => exact h.append ⟨_, hp⟩ (ih _ _)

theorem closed_finishTaping (τ : CTape V T A) : Closed (Returned (finishTaping τ)) (finishTapingHooks τ) := by
  unfold finishTaping finishTapingHooks
  by_cases h : τ.mgr.mode = .record
  · rw [if_pos h, if_pos h]; exact closed_endTapingLoop _ _ _
  · rw [if_neg h, if_neg h]; exact closed_nil _

theorem closed_loop {S α : Type*} (f : S → α → Except CkptError S) (g : S → α → List Hook) (h : ∀ s a, Closed (Returned (f s a)) (g s a))
    (l : List α) (s : S) : Closed (Returned (l.foldlM f s)) (loopHooks f g l s) := by
  induction l generalizing s with
  | nil => exact closed_nil _
  | cons a l ih =>
    unfold loopHooks
    rw [List.foldlM_cons]
    cases hp : f s a with
    | error e => exact (h s a).append_nil (fun ⟨_, h'⟩ => by cases h')
    | ok s' => exact (h s a).append ⟨_, hp⟩ (ih s')

theorem closed_forwardStep (k : Nat) (first wi wa : Bool) (st : Storage) (keepJ : List BV) (τ : CTape V T A) :
    Closed (Returned (forwardStep k first wi wa st keepJ τ)) (forwardStepHooks k first wi wa st τ) := by
  unfold forwardStep forwardStepHooks
  cases hs : τ.steps[k]? with
  | none => exact closed_nil _
  | some s =>
    dsimp only
    rw [List.append_assoc]
    refine (closed_one True (e := .blocks k) rfl rfl).append trivial ?_
    by_cases hx : ltTotal (k + 1) τ.mgr.total = true ∧ τ.steps.length ≤ k + 1
    · rw [if_pos hx, if_pos hx, List.append_nil]
      refine ⟨?_, fun ⟨_, h⟩ => by cases h⟩
      by_cases hw : st ≠ .work
      · rw [if_pos hw]
        unfold storeHooks
        split
        · by_cases hd : st = .disk
          · subst hd; exact bracketed_cons rfl (bracketed_cons rfl (bracketed_nil _))
          · rw [if_neg hd]; exact bracketed_cons (by simp [Hook.Fits, hd]) (bracketed_nil _)
        · exact bracketed_nil _
      · rw [if_neg hw]; exact bracketed_nil _
    · rw [if_neg hx, if_neg hx]
      by_cases hw : st ≠ .work
      · rw [if_pos hw, if_pos hw]; exact closed_store _ _ _ _ _
      · rw [if_neg hw, if_neg hw]; exact closed_pause _ _

theorem closed_forwardSteps (n0 : Nat) (wi wa : Bool) (st : Storage) (keepJ : List BV) (n k : Nat) (τ : CTape V T A) :
    Closed (Returned (forwardSteps n0 wi wa st keepJ n k τ)) (forwardStepsHooks n0 wi wa st keepJ n k τ) := by
  induction n generalizing k τ with
  | zero => exact closed_nil _
  | succ n ih =>
    unfold forwardSteps forwardStepsHooks
    have h := closed_forwardStep k (decide (k = n0)) wi wa st keepJ τ
    cases hp : forwardStep k (decide (k = n0)) wi wa st keepJ τ with
    | error e => exact h.append_nil (fun ⟨_, h'⟩ => by cases h')
    | ok τ' => exact h.append ⟨_, hp⟩ (ih _ _)

theorem closed_process [Add A] (markings : Bool) (keepJ : List BV) (τ : CTape V T A) (a : Action) :
    Closed (Returned (process markings keepJ τ a)) (processHooks markings keepJ τ a) := by
  cases a with
  | forward n0 n1 wi wa st => exact closed_forwardSteps _ _ _ _ _ _ _ _
  | reverse n1 n0 clear =>
    refine closed_loop _ _ (fun τ k => ?_) _ _
    split
    · exact closed_one _ rfl rfl
    · exact closed_nil _
  | copy n src =>
    show Closed _ (if (τ.steps[n]?).isSome then [Hook.restore n src] else [])
    split
    · exact closed_one _ rfl rfl
    · exact closed_nil _
  | move n src =>
    show Closed _ (if (τ.steps[n]?).isSome then [Hook.restore n src] else [])
    split
    · exact closed_one _ rfl rfl
    · exact closed_nil _
  | endForward => exact closed_nil _
  | endReverse => exact closed_nil _

theorem closed_forwardSweep [Add A] (keepJ : List BV) (τ : CTape V T A) : Closed (Returned (forwardSweep keepJ τ)) (forwardSweepHooks keepJ τ) := by
  unfold forwardSweep forwardSweepHooks
  cases hf : τ.mgr.fwd with
  | nil => exact closed_nil _
  | cons a l =>
    cases a with
    | forward n0 n1 wi wa st =>
      dsimp only
      cases hs : τ.steps[n0]? with
      | none => exact closed_nil _
      | some s =>
        exact (closed_one True (e := .restore n0 st) rfl rfl).append trivial
          (closed_loop (perform false keepJ) (performHooks false keepJ) (fun τ a => closed_process _ _ _ _) _ _)
    | _ => exact closed_nil _

theorem closed_recompute [Add A] (usesDisk : Bool) (keepJ : List BV) (τ : CTape V T A) :
    Closed (Returned (recomputeTape keepJ τ)) (recomputeHooks usesDisk keepJ τ) := by
  unfold recomputeTape recomputeHooks
  have h := closed_finishTaping τ
  cases hp : finishTaping τ with
  | error e => exact h.append_nil (fun ⟨_, h'⟩ => by cases h')
  | ok τ' =>
    refine h.append ⟨_, hp⟩ ?_
    have hr : Closed True (if usesDisk then [Hook.reset] else []) := by
      split
      · exact closed_one _ rfl rfl
      · exact closed_nil _
    exact hr.append trivial (closed_forwardSweep _ _)

theorem closed_firstReverse [Add A] (markings : Bool) (acts : List Action) (τ : CTape V T A) :
    Closed (Returned (firstReverse markings acts τ)) (firstReverseHooks markings acts τ) := by
  induction acts generalizing τ with
  | nil =>
    unfold firstReverseHooks
    split <;> exact closed_nil _
  | cons a acts ih =>
    unfold firstReverse firstReverseHooks
    by_cases hc : τ.mgr.current = .endReverse
    · rw [if_pos hc, if_pos hc]; exact closed_nil _
    rw [if_neg hc, if_neg hc]
    dsimp only
    have h : Closed (Returned (perform markings [] { τ with mgr := { τ.mgr with rev := τ.mgr.rev ++ [a] } } a))
        (performHooks markings [] { τ with mgr := { τ.mgr with rev := τ.mgr.rev ++ [a] } } a) := closed_process _ _ _ _
    cases hp : perform markings [] { τ with mgr := { τ.mgr with rev := τ.mgr.rev ++ [a] } } a with
    | error e => exact h.append_nil (fun ⟨_, h'⟩ => by cases h')
    | ok τ' => exact h.append ⟨_, hp⟩ (ih _)

theorem closed_evaluateAdj [Add A] (markings : Bool) (τ : CTape V T A) : Closed (Returned (evaluateAdjTape markings τ)) (evaluateAdjHooks markings τ) := by
  unfold evaluateAdjTape evaluateAdjHooks
  have h := closed_finishTaping τ
  cases hp : finishTaping τ with
  | error e => exact h.append_nil (fun ⟨_, h'⟩ => by cases h')
  | ok τ' =>
    refine h.append ⟨_, hp⟩ ?_
    dsimp only
    by_cases hc : canReverse τ' = false
    · rw [if_pos hc, if_pos hc]; exact closed_nil _
    rw [if_neg hc, if_neg hc]
    have hs : Closed (Returned (reverseSweep markings τ')) (reverseSweepHooks markings τ') := by
      unfold reverseSweep reverseSweepHooks
      split
      · exact closed_loop _ _ (fun τ a => closed_process _ _ _ _) _ _
      · exact closed_firstReverse _ _ _
    refine hs.mono fun ⟨_, h'⟩ => ?_
    cases hr : reverseSweep markings τ' with
    | error e => rw [hr] at h'; cases h'
    | ok τ'' => exact ⟨_, rfl⟩

theorem closed_diskStep [Add A] [Zero A] [Mul V] (usesDisk : Bool) (truthy : V → Bool) (J : BV) (cs : List BV) (scale : V) (τ : CTape V T A)
    (o : DiskOp V T A) : Closed (Returned (diskStep truthy J cs scale τ o)) (diskHooks usesDisk truthy J cs τ o) := by
  cases o with
  | block b => exact closed_one _ rfl rfl
  | endTimestep => exact closed_mgrEndTimestep _ _
  | call xs =>
    have h2 : Closed True [Hook.user, Hook.reset] := ⟨bracketed_cons rfl (bracketed_cons rfl (bracketed_nil _)), fun _ => rfl⟩
    refine h2.append trivial ((closed_recompute usesDisk _ _).mono fun ⟨_, h'⟩ => ?_)
    unfold diskStep rfCall at h'
    dsimp only at h'
    split at h'
    next => cases h'
    next τ' hr => exact ⟨τ', hr⟩
  | derivative a =>
    refine (closed_evaluateAdj true _).mono fun ⟨_, h'⟩ => ?_
    unfold diskStep rfDerivative at h'
    dsimp only at h'
    split at h'
    next => cases h'
    next τ' hr => exact ⟨τ', hr⟩

theorem closed_enable (sch : Schedule) (gcFreq : Option Int) (hasPackage : Bool) (heap : Heap V T A) (steps : List (CStep V T A)) (eager : Bool) :
    Closed (Returned (enable sch gcFreq hasPackage heap steps eager)) (enableHooks sch gcFreq hasPackage heap steps eager) := by
  unfold enable enableHooks
  split
  · exact closed_nil _
  split
  · exact closed_nil _
  cases sch.acts with
  | nil => exact closed_nil _
  | cons a acts => exact closed_mgrEndTimestep _ _

theorem stores_append (l l' : List Hook) : stores (l ++ l') = stores l ++ stores l' := List.filterMap_append ..

theorem stores_pause (st : Storage) : stores (pauseHooks st) = [] := by
  unfold pauseHooks; split <;> rfl

theorem stores_store (k : Nat) (a b : Bool) (st : Storage) : stores (storeHooks k a b st) = if (a || b) = true then [(k, st)] else [] := by
  unfold storeHooks
  split
  · split <;> rfl
  · rfl

theorem forwardStep_total {k : Nat} {first wi wa : Bool} {st : Storage} {keepJ : List BV} {τ τ' : CTape V T A}
    (h : forwardStep k first wi wa st keepJ τ = .ok τ') : τ'.mgr.total = τ.mgr.total := by
  unfold forwardStep at h
  split at h
  · cases h
  · split at h
    · cases h
    · injection h with h
      subst h
      rfl

theorem stores_forwardStep {k : Nat} {first wi wa : Bool} {st : Storage} {keepJ : List BV} {τ τ' : CTape V T A}
    (h : forwardStep k first wi wa st keepJ τ = .ok τ') :
    stores (forwardStepHooks k first wi wa st τ) = if st = .work then [] else if ((wi && first) || wa) = true then [(k, st)] else [] := by
  unfold forwardStep at h
  unfold forwardStepHooks
  cases hs : τ.steps[k]? with
  | none => simp only [hs] at h; cases h
  | some s =>
    simp only [hs] at h
    by_cases hx : ltTotal (k + 1) τ.mgr.total = true ∧ τ.steps.length ≤ k + 1
    · rw [if_pos hx] at h; cases h
    dsimp only
    rw [if_neg hx, stores_append, stores_pause, stores_append, List.append_nil]
    by_cases hw : st = .work
    · rw [if_neg (by simp [hw]), if_pos hw]; rfl
    · rw [if_pos hw, if_neg hw, stores_store]; rfl

theorem stores_forwardSteps {n0 : Nat} {wi wa : Bool} {st : Storage} {keepJ : List BV} (n k : Nat) {τ τ' : CTape V T A}
    (h : forwardSteps n0 wi wa st keepJ n k τ = .ok τ') :
    stores (forwardStepsHooks n0 wi wa st keepJ n k τ) =
      (if st = .work then [] else (((List.range n).map (k + ·)).filter fun k => (wi && decide (k = n0)) || wa).map fun k => (k, st)) ∧
    τ'.mgr.total = τ.mgr.total := by
  induction n generalizing k τ with
  | zero =>
    unfold forwardSteps at h
    injection h with h
    subst h
    exact ⟨by unfold forwardStepsHooks; split <;> rfl, rfl⟩
  | succ n ih =>
    unfold forwardSteps at h
    unfold forwardStepsHooks
    cases hp : forwardStep k (decide (k = n0)) wi wa st keepJ τ with
    | error e => rw [hp] at h; cases h
    | ok τ₁ =>
      rw [hp] at h
      obtain ⟨h1, h2⟩ := ih (k + 1) h
      refine ⟨?_, h2.trans (forwardStep_total hp)⟩
      dsimp only
      rw [stores_append, h1, stores_forwardStep hp]
      by_cases hw : st = .work
      · simp [hw]
      · have e : (List.range (n + 1)).map (k + ·) = k :: (List.range n).map (k + 1 + ·) := by
          rw [List.range_succ_eq_map, List.map_cons, List.map_map]
          congr 1
          apply List.map_congr_left
          intro i _
          show k + (i + 1) = k + 1 + i
          omega
        rw [if_neg hw, if_neg hw, if_neg hw, e, List.filter_cons]
        split <;> rfl

theorem range_inForward (n0 : Nat) (n1 : Option Nat) (N : Nat) :
    (List.range N).filter (inForward n0 n1) = (List.range (forwardCount n0 n1 (some N))).map (n0 + ·) := by
  induction N with
  | zero => cases n1 <;> simp [forwardCount]
  | succ N ih =>
    rw [List.range_succ, List.filter_append, ih]
    by_cases h : inForward n0 n1 N = true
    · have hc : forwardCount n0 n1 (some (N + 1)) = forwardCount n0 n1 (some N) + 1 ∧ n0 + forwardCount n0 n1 (some N) = N := by
        cases n1 with
        | none =>
          simp only [inForward, Bool.and_true, decide_eq_true_eq] at h
          simp only [forwardCount]
          omega
        | some m =>
          simp only [inForward, Bool.and_eq_true, decide_eq_true_eq] at h
          simp only [forwardCount]
          omega
      rw [hc.1, List.range_succ, List.map_append]
      simp [h, hc.2]
    · have hc : forwardCount n0 n1 (some (N + 1)) = forwardCount n0 n1 (some N) := by
        cases n1 with
        | none =>
          simp only [inForward, Bool.and_true, decide_eq_true_eq] at h
          simp only [forwardCount]
          omega
        | some m =>
          simp only [inForward, Bool.and_eq_true, decide_eq_true_eq] at h
          simp only [forwardCount]
          omega
      rw [hc]
      simp [h]

theorem stores_loop_nil {S α : Type*} (f : S → α → Except CkptError S) (g : S → α → List Hook) (h : ∀ s a, stores (g s a) = []) (l : List α) (s : S) :
    stores (loopHooks f g l s) = [] := by
  induction l generalizing s with
  | nil => rfl
  | cons a l ih =>
    unfold loopHooks
    rw [stores_append, h, List.nil_append]
    cases f s a with
    | error e => rfl
    | ok s' => exact ih s'

theorem foldlM_total [Add A] {m clear : Bool} (l : List Nat) {τ τ' : CTape V T A}
    (h : l.foldlM (fun τ k => reverseStep k clear m τ) τ = .ok τ') : τ'.mgr.total = τ.mgr.total := by
  induction l generalizing τ with
  | nil => injection h with h; subst h; rfl
  | cons k l ih =>
    rw [List.foldlM_cons] at h
    cases hp : reverseStep k clear m τ with
    | error e => rw [hp] at h; cases h
    | ok τ₁ =>
      rw [hp] at h
      refine (ih h).trans ?_
      unfold reverseStep at hp
      split at hp
      · cases hp
      · injection hp with hp; subst hp; rfl

/-- One action stores what it says. -/
theorem stores_process [Add A] {m : Bool} {keepJ : List BV} {N : Nat} {a : Action} {τ τ' : CTape V T A} (hN : τ.mgr.total = some N)
    (h : process m keepJ τ a = .ok τ') : stores (processHooks m keepJ τ a) = toStore N a ∧ τ'.mgr.total = τ.mgr.total := by
  cases a with
  | forward n0 n1 wi wa st =>
    obtain ⟨h1, h2⟩ := stores_forwardSteps _ _ h
    refine ⟨?_, h2⟩
    show stores (forwardStepsHooks n0 wi wa st keepJ (forwardCount n0 n1 τ.mgr.total) n0 τ) = _
    rw [h1, hN]
    dsimp only [toStore]
    by_cases hw : st = .work
    · rw [if_pos hw, if_pos hw]
    · rw [if_neg hw, if_neg hw, ← range_inForward, List.filter_filter]
      congr 2
      funext k
      exact Bool.and_comm ..
  | reverse n1 n0 clear =>
    refine ⟨stores_loop_nil _ _ (fun τ k => ?_) _ _, foldlM_total _ h⟩
    split <;> rfl
  | copy n src =>
    refine ⟨?_, ?_⟩
    · show stores (if (τ.steps[n]?).isSome then [Hook.restore n src] else []) = []
      split <;> rfl
    · unfold process at h
      dsimp only at h
      split at h
      · cases h
      · injection h with h; subst h; rfl
  | move n src =>
    refine ⟨?_, ?_⟩
    · show stores (if (τ.steps[n]?).isSome then [Hook.restore n src] else []) = []
      split <;> rfl
    · unfold process at h
      dsimp only at h
      split at h
      · cases h
      · injection h with h; subst h; rfl
  | endForward => injection h with h; subst h; exact ⟨rfl, rfl⟩
  | endReverse => injection h with h; subst h; exact ⟨rfl, rfl⟩

theorem stores_loop {N : Nat} (f : CTape V T A → Action → Except CkptError (CTape V T A)) (g : CTape V T A → Action → List Hook)
    (h : ∀ τ a τ', τ.mgr.total = some N → f τ a = .ok τ' → stores (g τ a) = toStore N a ∧ τ'.mgr.total = τ.mgr.total)
    (l : List Action) {τ τ' : CTape V T A} (hN : τ.mgr.total = some N) (hl : l.foldlM f τ = .ok τ') :
    stores (loopHooks f g l τ) = l.flatMap (toStore N) := by
  induction l generalizing τ with
  | nil => rfl
  | cons a l ih =>
    rw [List.foldlM_cons] at hl
    unfold loopHooks
    cases hp : f τ a with
    | error e => rw [hp] at hl; cases hl
    | ok τ₁ =>
      rw [hp] at hl
      obtain ⟨h1, h2⟩ := h τ a τ₁ hN hp
      dsimp only
      rw [stores_append, h1, ih (h2.trans hN) hl, List.flatMap_cons]

/-! ## Theorems -/

/-- **A package is told to write to disk exactly while values are stored for an action that says so.**  From enabling checkpointing on, whatever the
schedule, the program and the evaluations: if checkpoints are kept in memory when checkpointing is enabled, then at every point, also if an exception
comes next, blocks are recomputed, operations recorded, controls set, values restored and adjoints computed while checkpoints are kept in memory, and
values are stored for an action on disk exactly if its storage is the disk.  Missing: packages that were writing to disk before
(`on_until_the_first_disk_action`), operations after an exception (`disk_left_on`). -/
theorem disk_bracketed_partial [Add A] [Zero A] [Mul V] (sch : Schedule) (gcFreq : Option Int) (hasPackage : Bool) (heap : Heap V T A) (steps : List (CStep V T A))
    (eager : Bool) (truthy : V → Bool) (J : BV) (cs : List BV) (scale : V) (ops : List (DiskOp V T A)) :
    Bracketed false (allHooks sch gcFreq hasPackage heap steps eager truthy J cs scale ops) := by
  unfold allHooks
  have h := closed_enable sch gcFreq hasPackage heap steps eager
  cases hp : enable sch gcFreq hasPackage heap steps eager with
  | error e => exact (h.append_nil (ok' := False) (fun h' => h'.elim)).1
  | ok τ => exact (h.append ⟨_, hp⟩ (closed_loop _ _ (fun τ o => closed_diskStep _ _ _ _ _ _ _) ops τ)).1

/-- **When an operation returns checkpoints are kept in memory.** -/
theorem disk_paused [Add A] [Zero A] [Mul V] (usesDisk : Bool) (truthy : V → Bool) (J : BV) (cs : List BV) (scale : V) (ops : List (DiskOp V T A))
    (τ τ' : CTape V T A) (h : ops.foldlM (diskStep truthy J cs scale) τ = .ok τ') :
    onDisk false (sessionHooks usesDisk truthy J cs scale ops τ) = false :=
  (closed_loop _ _ (fun τ o => closed_diskStep usesDisk truthy J cs scale τ o) ops τ).2 ⟨_, h⟩

/-- If the first action stores on disk it does not matter whether the package was writing to disk before. -/
theorem disk_bracketed_on [Add A] [Zero A] [Mul V] (sch : Schedule) (gcFreq : Option Int) (hasPackage : Bool) (heap : Heap V T A) (steps : List (CStep V T A))
    (eager : Bool) (truthy : V → Bool) (J : BV) (cs : List BV) (scale : V) (ops : List (DiskOp V T A)) (n1 : Option Nat) (wi wa : Bool)
    (hfirst : sch.acts.head? = some (.forward 0 n1 wi wa .disk)) :
    Bracketed true (allHooks sch gcFreq hasPackage heap steps eager truthy J cs scale ops) := by
  have h0 := disk_bracketed_partial sch gcFreq hasPackage heap steps eager truthy J cs scale ops
  obtain ⟨acts, ha⟩ : ∃ acts, sch.acts = .forward 0 n1 wi wa .disk :: acts := by
    cases hs : sch.acts with
    | nil => rw [hs] at hfirst; cases hfirst
    | cons a l => rw [hs] at hfirst; injection hfirst with h; exact ⟨l, by rw [h]⟩
  have key : allHooks sch gcFreq hasPackage heap steps eager truthy J cs scale ops = [] ∨
      ∃ l, allHooks sch gcFreq hasPackage heap steps eager truthy J cs scale ops = .pause :: l := by
    unfold allHooks enableHooks enable
    by_cases h1 : steps.flatMap (·.blocks) ≠ []
    · left; rw [if_pos h1, if_pos h1]; rfl
    rw [if_neg h1, if_neg h1]
    by_cases h2 : (sch.usesDisk && !hasPackage) = true
    · left; rw [if_pos h2, if_pos h2]; rfl
    rw [if_neg h2, if_neg h2, ha]
    right
    have e : ∀ (τ : CTape V T A), τ.mgr.mode = .record → τ.mgr.current = .forward 0 n1 wi wa .disk → ∃ l, mgrEndTimestepHooks 0 τ = Hook.pause :: l := by
      intro τ hm hc
      unfold mgrEndTimestepHooks
      rw [if_neg (by rw [hm]; decide), if_neg (by rw [hm]; decide)]
      unfold endTimestepLoopHooks
      rw [hc]
      exact ⟨_, rfl⟩
    dsimp only
    generalize ht : (⟨heap, steps, eager, _⟩ : CTape V T A) = τ
    obtain ⟨l, hl⟩ := e τ (by rw [← ht]) (by rw [← ht])
    rw [hl]
    exact ⟨_, rfl⟩
  rcases key with h | ⟨l, h⟩
  · rw [h]; exact bracketed_nil _
  · rw [h] at h0 ⊢
    refine bracketed_cons trivial fun p e q hp => ?_
    exact h0 (.pause :: p) e q (by rw [hp]; rfl)

/-- **An evaluation stores what the actions of the recording say, in their order, on their media.** -/
theorem evaluation_stores [Add A] (usesDisk : Bool) (keepJ : List BV) {N : Nat} {τ τ' : CTape V T A} (hm : τ.mgr.mode ≠ .record)
    (hN : τ.mgr.total = some N) (h : recomputeTape keepJ τ = .ok τ') :
    stores (recomputeHooks usesDisk keepJ τ) = τ.mgr.fwd.flatMap (toStore N) := by
  have hf : finishTaping τ = .ok τ := if_neg hm
  have hh : finishTapingHooks τ = [] := if_neg hm
  unfold recomputeTape at h
  unfold recomputeHooks
  rw [hf] at h ⊢
  rw [hh, List.nil_append]
  dsimp only at h ⊢
  rw [stores_append]
  have hr : stores (if usesDisk then [Hook.reset] else []) = [] := by split <;> rfl
  rw [hr, List.nil_append]
  unfold forwardSweep at h
  unfold forwardSweepHooks
  dsimp only at h ⊢
  cases hfw : τ.mgr.fwd with
  | nil => rw [hfw] at h; cases h
  | cons a l =>
    rw [hfw] at h
    cases a with
    | forward n0 n1 wi wa st =>
      dsimp only at h ⊢
      cases hs : τ.steps[n0]? with
      | none => rw [hs] at h; cases h
      | some s =>
        rw [hs] at h
        dsimp only at h ⊢
        refine Eq.trans ?_ (stores_loop (N := N) (perform false keepJ) (performHooks false keepJ) (fun τ a τ' h1 h2 => stores_process h1 h2) _ (by exact hN) h)
        rfl
    | _ => cases h

/-- **A later adjoint evaluation stores what its actions say.** -/
theorem adjoint_stores [Add A] (markings : Bool) {N : Nat} {τ τ' : CTape V T A} (hm : τ.mgr.mode ≠ .record) (hrev : τ.mgr.rev ≠ [])
    (hN : τ.mgr.total = some N) (h : evaluateAdjTape markings τ = .ok τ') :
    stores (evaluateAdjHooks markings τ) = τ.mgr.rev.flatMap (toStore N) := by
  have hf : finishTaping τ = .ok τ := if_neg hm
  have hh : finishTapingHooks τ = [] := if_neg hm
  unfold evaluateAdjTape at h
  unfold evaluateAdjHooks
  rw [hf] at h ⊢
  rw [hh, List.nil_append]
  dsimp only at h ⊢
  by_cases hc : canReverse τ = false
  · rw [if_pos hc] at h; cases h
  rw [if_neg hc] at h ⊢
  unfold reverseSweep at h
  unfold reverseSweepHooks
  rw [if_pos hrev] at h ⊢
  cases hl : τ.mgr.rev.foldlM (process markings []) τ with
  | error e => rw [hl] at h; cases h
  | ok τ₁ => exact stores_loop (process markings []) (processHooks markings []) (fun τ a τ' h1 h2 => stores_process h1 h2) _ hN hl

/-! ## Examples and witnesses -/

/-- The standard schedule for two steps with one snapshot, on disk. -/
def multistageDisk2 : Schedule where
  acts := [.forward 0 (some 1) true false .disk, .forward 1 (some 2) false true .work, .endForward,
    .reverse 2 1 true, .move 0 .disk, .forward 0 (some 1) false true .work, .reverse 1 0 true, .endReverse]
  maxN := 2
  usesDisk := true

/-- `J = x⁴` in two steps, evaluated at 3 and differentiated. -/
def powerOps : List (DiskOp Int Int Int) :=
  [.block (mulBlk 0 0 1), .endTimestep, .block (mulBlk 1 1 2), .endTimestep, .call [3], .derivative 1]

example : allHooks multistageDisk2 none true (freshHeap [2, 4, 16]) [] false (fun x => x != 0) 2 [0] 1 powerOps =
    [.pause, .user, .resume, .store 0 .disk, .pause, .user,
     .user, .reset, .reset, .restore 0 .disk, .blocks 0, .resume, .store 0 .disk, .pause, .blocks 1,
     .adjoint 1, .restore 0 .disk, .blocks 0, .adjoint 0] := by
  decide +kernel

/-- The tape after recording. -/
def diskTape : CTape Int Int Int := tapeOf emptyTape (record { multistageDisk2 with usesDisk := false } (freshHeap [2, 4, 16]) exPower)

/-- `evaluation_stores` applies. -/
example : stores (recomputeHooks true [2] diskTape) = [(0, .disk)] := by
  have h : isOk (recomputeTape [2] diskTape) = true := by decide +kernel
  rw [evaluation_stores true [2] (N := 2) (by decide +kernel) (by decide +kernel) (tapeOf_spec (d := emptyTape) h)]
  decide +kernel

/-- `adjoint_stores` applies: all data for the adjoint are stored again when the steps are restarted. -/
example : ∃ τ : CTape Int Int Int, τ.mgr.mode ≠ .record ∧ τ.mgr.rev ≠ [] ∧ τ.mgr.total = some 2 ∧ (∃ τ', evaluateAdjTape true τ = .ok τ') ∧
    τ.mgr.rev.flatMap (toStore 2) = [(0, .ram), (1, .ram)] :=
  ⟨{ diskTape with mgr := { diskTape.mgr with
      rev := [.forward 0 (some 2) false true .ram, .copy 1 .ram, .reverse 2 1 true, .copy 0 .ram, .reverse 1 0 true, .endReverse] } },
    by decide +kernel, by decide +kernel, by decide +kernel, ⟨_, tapeOf_spec (d := emptyTape) (by decide +kernel)⟩, by decide +kernel⟩

/-- A package that writes to disk when checkpointing is enabled goes on doing so until the first action on disk, here for ever: the working memory of the
recording is on disk. -/
theorem on_until_the_first_disk_action :
    ¬ Bracketed true (allHooks multistage2 none true (freshHeap [2, 4, 16]) [] false (fun x => x != 0) 2 [0] 1 powerOps) := by
  have e : allHooks multistage2 none true (freshHeap [2, 4, 16]) [] false (fun x => x != 0) 2 [0] 1 powerOps =
      [] ++ .user :: [.store 0 .ram, .user, .user, .reset, .restore 0 .ram, .blocks 0, .store 0 .ram, .blocks 1,
        .adjoint 1, .restore 0 .ram, .blocks 0, .adjoint 0] := by decide +kernel
  intro h
  exact absurd (h _ _ _ e) (by simp [Hook.Fits, onDisk])

/-- An exception while values are stored on disk leaves the package writing to disk, and the next evaluation recomputes blocks in this state. -/
theorem disk_left_on :
    recomputeHooks true [2] diskTape = [.reset, .restore 0 .disk, .blocks 0, .resume] ++ .store 0 .disk :: [.pause, .blocks 1] ∧
    onDisk false [.reset, .restore 0 .disk, .blocks 0, .resume] = true ∧
    ¬ Bracketed true (recomputeHooks true [2] { diskTape with mgr := { diskTape.mgr with mode := .recompute } }) := by
  have e : recomputeHooks true [2] { diskTape with mgr := { diskTape.mgr with mode := .recompute } } =
      [.reset, .restore 0 .disk] ++ .blocks 0 :: [.resume, .store 0 .disk, .pause, .blocks 1] := by decide +kernel
  exact ⟨by decide +kernel, rfl, fun h => absurd (h _ _ _ e) (by simp [Hook.Fits, onDisk])⟩

/-- An evaluation reads what was stored before `reset`: a package must keep what the tape refers to. -/
theorem read_after_reset :
    ∃ p q, allHooks multistageDisk2 none true (freshHeap [2, 4, 16]) [] false (fun x => x != 0) 2 [0] 1 powerOps =
      p ++ .store 0 .disk :: [.pause, .user, .user, .reset, .reset] ++ .restore 0 .disk :: q :=
  ⟨[.pause, .user, .resume], [.blocks 0, .resume, .store 0 .disk, .pause, .blocks 1, .adjoint 1, .restore 0 .disk, .blocks 0, .adjoint 0],
    by decide +kernel⟩

end CTape
end Pyadjoint
