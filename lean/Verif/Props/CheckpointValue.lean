import Verif.Proofs.CkptGood
import Verif.Proofs.Replay
import Verif.Props.CheckpointMisuse

/-!
# C25: the value of the functional under checkpointing

For every recorded program, every well-formed schedule and every history of evaluations and derivatives, the
reduced functional returns the value the recorded operations give for the new control values
(`checkpointed_value_partial`, `checkpointed_value_as_without_partial`).  Two hypotheses cannot be dropped, see
`zero_functional_stale` and `first_evaluation_stale`.
-/

namespace Pyadjoint
namespace CTape

variable {V T A : Type*}

/-- The tape at any time after recording. -/
structure Alive (P : BV → Prop) (out : BV → V) (sch : Schedule) (bs : Blocks V T A) (τ : CTape V T A) :
    Prop where
  state : Taped P out sch bs τ ∨ (τ.mgr.mode ≠ .record ∧ ∃ N, Core P out N bs τ)
  flags : ∀ v, (τ.heap v).isControl = false

theorem finishTaping_core {P : BV → Prop} {out : BV → V} {sch : Schedule} (hwf : sch.WellFormed)
    {bs : Blocks V T A} {τ τ' : CTape V T A}
    (h : Taped P out sch bs τ ∨ (τ.mgr.mode ≠ .record ∧ ∃ N, Core P out N bs τ))
    (hf : finishTaping τ = .ok τ') :
    (∃ N, Core P out N bs τ') ∧ τ'.mgr.mode ≠ .record ∧ (τ.mgr.mode ≠ .record → τ' = τ) ∧
    ∀ v, ∃ c, τ'.heap v = { τ.heap v with ckpt := c } := by
  unfold finishTaping at hf
  split at hf
  · rename_i hm
    rcases h with h | ⟨hm', -⟩
    · obtain ⟨c1, c2⟩ := h.core (Or.inr hf) hwf
      exact ⟨⟨_, c1⟩, by rw [c2]; decide, fun h => absurd hm h, (endTaping_ended P out hf).1.heap⟩
    · exact absurd hm hm'
  · rename_i hm
    cases hf
    refine ⟨?_, hm, fun _ => rfl, fun v => ⟨(τ.heap v).ckpt, rfl⟩⟩
    rcases h with h | ⟨-, h⟩
    · obtain ⟨c1, -⟩ := h.core (Or.inl ⟨h.track.mode.resolve_left hm, rfl⟩) hwf
      exact ⟨_, c1⟩
    · exact h

theorem process_mode [Add A] {m : Bool} {keepJ : List BV} {a : Action} {τ τ' : CTape V T A}
    (h : process m keepJ τ a = .ok τ') (hm : τ.mgr.mode ≠ .record) : τ'.mgr.mode ≠ .record := by
  cases a with
  | forward n0 n1 wi wa st =>
    refine forwardSteps_ind (R := fun τ τ' => τ.mgr.mode ≠ .record → τ'.mgr.mode ≠ .record) (fun _ h => h)
      (fun _ _ _ h h' hm => h' (h hm)) (fun k τ τ' h hm => ?_) h hm
    obtain ⟨s, -, -, ⟨b, e⟩, -⟩ := forwardStep_ok h
    rw [e]; exact hm
  | reverse n1 n0 clear =>
    refine foldlM_ind (R := fun τ τ' => τ.mgr.mode ≠ .record → τ'.mgr.mode ≠ .record) (fun _ h => h)
      (fun _ _ _ h h' hm => h' (h hm)) _ (fun τ τ' k _ h hm => ?_) h hm
    obtain ⟨s, s', -, -, -, -, -, -, -, -, e, -⟩ := reverseStep_ok h
    rw [e]; exact hm
  | copy n src =>
    simp only [process] at h
    split at h
    · cases h
    · cases h; exact hm
  | move n src =>
    simp only [process] at h
    split at h
    · cases h
    · cases h; exact hm
  | endForward => cases h; exact Mode.noConfusion
  | endReverse =>
    cases h
    dsimp only
    split <;> exact Mode.noConfusion

theorem forwardSweep_mode [Add A] {keepJ : List BV} {τ τ' : CTape V T A}
    (h : forwardSweep keepJ τ = .ok τ') (hm : τ.mgr.mode ≠ .record) : τ'.mgr.mode ≠ .record := by
  unfold forwardSweep at h
  split at h
  · split at h
    · cases h
    · exact foldlM_ind (R := fun τ τ' => τ.mgr.mode ≠ .record → τ'.mgr.mode ≠ .record) (fun _ h => h)
        (fun _ _ _ h h' hm => h' (h hm)) _ (fun τ τ' a _ h hm => process_mode (τ := { τ with mgr := { τ.mgr with current := a } }) h hm) h hm
  · cases h

theorem heapOK_call {P : BV → Prop} {cs : List BV} (hP : ∀ v, P v → v ∉ cs) (xs : List V)
    (h : Heap V T A) : HeapOK P (fun h => markControls cs true (updateControls cs xs h)) h := by
  have hf : ∀ v, ∃ c m, markControls cs true (updateControls cs xs h) v =
      { h v with ckpt := c, isControl := m } := by
    intro v
    obtain ⟨c, hc⟩ := updateControls_frame cs xs h v
    rw [markControls_apply, hc]
    split
    · exact ⟨_, _, rfl⟩
    · exact ⟨_, _, rfl⟩
  refine ⟨fun v => ?_, fun v hv => ?_, fun v => ?_, fun v => ?_⟩
  · obtain ⟨c, m, e⟩ := hf v; rw [e]
  · rw [markControls_apply, if_neg (hP v hv), updateControls_of_not_mem cs xs h v (hP v hv)]
  · obtain ⟨c, m, e⟩ := hf v; rw [e]
  · obtain ⟨c, m, e⟩ := hf v; rw [e]

theorem heapOK_mark (P : BV → Prop) (cs : List BV) (m : Bool) (h : Heap V T A) :
    HeapOK P (markControls cs m) h := by
  refine ⟨fun v => ?_, fun v hv => ?_, fun v => ?_, fun v => ?_⟩ <;>
    (rw [markControls_apply]; split <;> rfl)

theorem seedAdjoint_frame (J : BV) (cs : List BV) (a : A) (bs : Blocks V T A) (h : Heap V T A) (v : BV) :
    ∃ x m, seedAdjoint J cs a bs h v =
      { h v with adj := x, marked := m, isControl := if v ∈ cs then true else (h v).isControl } := by
  classical
  have h1 : ∃ x, resetVariables bs .adjoint h v = { h v with adj := x } := by
    rw [resetVariables_apply]
    split
    · exact ⟨none, rfl⟩
    · exact ⟨(h v).adj, rfl⟩
  obtain ⟨x, h1⟩ := h1
  unfold seedAdjoint
  dsimp only
  rw [markControls_apply, markAll_apply]
  by_cases hJ : v = J
  · subst hJ
    rw [Function.update_self, h1]
    by_cases hc : v ∈ cs <;> by_cases hm : v ∈ findRelevantNodes bs cs <;> simp only [hc, hm, if_true, if_false] <;>
      exact ⟨_, _, rfl⟩
  · rw [Function.update_of_ne hJ, h1]
    by_cases hc : v ∈ cs <;> by_cases hm : v ∈ findRelevantNodes bs cs <;> simp only [hc, hm, if_true, if_false] <;>
      exact ⟨_, _, rfl⟩

theorem unmark_frame (cs : List BV) (bs : Blocks V T A) (h : Heap V T A) (v : BV) :
    ∃ m, unmark cs bs h v = { h v with marked := m, isControl := if v ∈ cs then false else (h v).isControl } := by
  unfold unmark
  rw [markAll_apply, markControls_apply]
  by_cases hc : v ∈ cs <;> by_cases hm : v ∈ findRelevantNodes bs cs <;> simp only [hc, hm, if_true, if_false] <;>
      exact ⟨_, rfl⟩

theorem heapOK_seed (P : BV → Prop) (J : BV) (cs : List BV) (a : A) (bs : Blocks V T A) (h : Heap V T A) :
    HeapOK P (seedAdjoint J cs a bs) h := by
  refine ⟨fun v => ?_, fun v hv => ?_, fun v => ?_, fun v => ?_⟩ <;>
    (obtain ⟨x, m, e⟩ := seedAdjoint_frame J cs a bs h v; rw [e])

theorem heapOK_unmark (P : BV → Prop) (cs : List BV) (bs : Blocks V T A) (h : Heap V T A) :
    HeapOK P (unmark cs bs) h := by
  refine ⟨fun v => ?_, fun v hv => ?_, fun v => ?_, fun v => ?_⟩ <;>
    (obtain ⟨m, e⟩ := unmark_frame cs bs h v; rw [e])

theorem onHeap_state {P : BV → Prop} {out : BV → V} {sch : Schedule} {bs : Blocks V T A}
    {τ : CTape V T A} {f : Heap V T A → Heap V T A} (hf : HeapOK P f τ.heap)
    (h : Taped P out sch bs τ ∨ (τ.mgr.mode ≠ .record ∧ ∃ N, Core P out N bs τ)) :
    Taped P out sch bs (τ.onHeap f) ∨ ((τ.onHeap f).mgr.mode ≠ .record ∧ ∃ N, Core P out N bs (τ.onHeap f)) := by
  rcases h with h | ⟨h1, N, h2⟩
  · exact Or.inl (h.onHeap hf)
  · exact Or.inr ⟨h1, N, h2.onHeap hf⟩

/-- An evaluation keeps the tape in order. -/
theorem rfCall_alive [Add A] [Mul V] {P : BV → Prop} {out : BV → V} {sch : Schedule} (hwf : sch.WellFormed)
    {bs : Blocks V T A} (hst : Stable P bs out) {truthy : V → Bool} {J : BV} {cs : List BV}
    (hP : ∀ v, P v → v ∉ cs) {scale : V} {xs : List V} {τ τ' : CTape V T A} {y : V}
    (h : Alive P out sch bs τ) (hr : rfCall truthy J cs scale xs τ = .ok (y, τ')) :
    Alive P out sch bs τ' ∧ τ'.mgr.mode ≠ .record := by
  unfold rfCall at hr
  dsimp only at hr
  split at hr
  · cases hr
  · rename_i τ₂ h₂
    simp only [Except.ok.injEq, Prod.mk.injEq] at hr
    obtain ⟨-, rfl⟩ := hr
    unfold recomputeTape at h₂
    split at h₂
    · cases h₂
    · rename_i τ₁ h₁
      obtain ⟨⟨N, c1⟩, c2, -, c3⟩ := finishTaping_core hwf (onHeap_state (heapOK_call hP xs τ.heap) h.state) h₁
      have c1' : Core P out N bs { τ₁ with mgr := { τ₁.mgr with mode := .recompute } } :=
        ⟨c1.pos, ⟨c1.live.dep, c1.live.carry, c1.live.init⟩, c1.total, c1.length, c1.fwd,
          ⟨c1.clean.output, c1.clean.heap, c1.clean.stored⟩, c1.blocks⟩
      have hs := forwardSweep_clean P out h₂
      have hm : τ₂.mgr.mode ≠ .record := forwardSweep_mode h₂ Mode.noConfusion
      refine ⟨⟨onHeap_state (heapOK_mark P cs false _) (Or.inr ⟨hm, N, c1'.evolve hst hs⟩), fun v => ?_⟩, hm⟩
      show (markControls cs false τ₂.heap v).isControl = false
      rw [markControls_apply]
      split
      · rfl
      · rename_i hv
        rw [hs.1.control]
        obtain ⟨c, e⟩ := c3 v
        show (τ₁.heap v).isControl = false
        rw [e]
        show (markControls cs true (updateControls cs xs τ.heap) v).isControl = false
        rw [markControls_apply, if_neg hv, updateControls_isControl]
        exact h.flags v

/-- So does a derivative. -/
theorem rfDerivative_alive [Add A] [Zero A] {P : BV → Prop} {out : BV → V} {sch : Schedule}
    (hwf : sch.WellFormed) {bs : Blocks V T A} (hst : Stable P bs out) {J : BV} {cs : List BV} {a : A}
    {τ τ' : CTape V T A} {ds : List A} (h : Alive P out sch bs τ)
    (hr : rfDerivative J cs a τ = .ok (ds, τ')) : Alive P out sch bs τ' ∧ τ'.mgr.mode ≠ .record := by
  unfold rfDerivative at hr
  split at hr
  · cases hr
  · rename_i τ₃ h₃
    simp only [Except.ok.injEq, Prod.mk.injEq] at hr
    obtain ⟨-, rfl⟩ := hr
    unfold evaluateAdjTape at h₃
    split at h₃
    · cases h₃
    · rename_i τ₁ h₁
      split at h₃
      · cases h₃
      · split at h₃
        · cases h₃
        · rename_i τ₂ h₂
          cases h₃
          obtain ⟨⟨N, c1⟩, c2, -, c3⟩ := finishTaping_core hwf
            (onHeap_state (heapOK_seed P J cs a τ.blocks τ.heap) h.state) h₁
          have hs := reverseSweep_clean P out h₂
          have c4 := c1.evolve hst hs
          have c4' : Core P out N bs { τ₂ with mgr := { τ₂.mgr with mode := .evaluateAdjoint } } :=
            ⟨c4.pos, ⟨c4.live.dep, c4.live.carry, c4.live.init⟩, c4.total, c4.length, c4.fwd,
              ⟨c4.clean.output, c4.clean.heap, c4.clean.stored⟩, c4.blocks⟩
          refine ⟨⟨onHeap_state (heapOK_unmark P cs τ.blocks _) (Or.inr ⟨Mode.noConfusion, N, c4'⟩),
            fun v => ?_⟩, Mode.noConfusion⟩
          show (unmark cs τ.blocks τ₂.heap v).isControl = false
          obtain ⟨m, e⟩ := unmark_frame cs τ.blocks τ₂.heap v
          rw [e]
          dsimp only
          split
          · rfl
          · rename_i hv
            rw [hs.1.control]
            obtain ⟨c, e⟩ := c3 v
            rw [e]
            show (seedAdjoint J cs a τ.blocks τ.heap v).isControl = false
            obtain ⟨x, m, e⟩ := seedAdjoint_frame J cs a τ.blocks τ.heap v
            rw [e]
            dsimp only
            rw [if_neg hv]
            exact h.flags v

/-! ## Statement -/

/-- What the user may do with the reduced functionals of a recorded tape that have the controls `cs`: evaluate
and differentiate, in any order. -/
inductive History [Add A] [Zero A] [Mul V] (truthy : V → Bool) (cs : List BV) :
    CTape V T A → CTape V T A → Prop
  | start (τ) : History truthy cs τ τ
  | call {τ₀ τ τ' : CTape V T A} {J scale xs y} (h : History truthy cs τ₀ τ)
      (hr : rfCall truthy J cs scale xs τ = .ok (y, τ')) : History truthy cs τ₀ τ'
  | derivative {τ₀ τ τ' : CTape V T A} {J a ds} (h : History truthy cs τ₀ τ)
      (hr : rfDerivative J cs a τ = .ok (ds, τ')) : History truthy cs τ₀ τ'

theorem History.alive [Add A] [Zero A] [Mul V] {P : BV → Prop} {out : BV → V} {sch : Schedule}
    (hwf : sch.WellFormed) {bs : Blocks V T A} (hst : Stable P bs out) {truthy : V → Bool} {cs : List BV}
    (hP : ∀ v, P v → v ∉ cs) {τ τ' : CTape V T A} (hh : History truthy cs τ τ')
    (h : Alive P out sch bs τ) : Alive P out sch bs τ' := by
  induction hh with
  | start => exact h
  | call _ hr ih => exact (rfCall_alive hwf hst hP ih hr).1
  | derivative _ hr ih => exact (rfDerivative_alive hwf hst ih hr).1

/-- Recording preserves control flags. -/
theorem recording_flags (es : List (Event V T A)) {P : BV → Prop} {out : BV → V} {sch : Schedule}
    {bs : Blocks V T A} {τ τ' : CTape V T A} (h : Taped P out sch bs τ)
    (wf : WF (bs ++ Event.blocks es)) (hr : recording es τ = .ok τ')
    (hfl : ∀ v, (τ.heap v).isControl = false) : ∀ v, (τ'.heap v).isControl = false := by
  induction es generalizing bs τ with
  | nil =>
    simp only [CTape.recording, List.foldlM_nil] at hr
    cases hr
    exact hfl
  | cons e es ih =>
    rw [recording_cons] at hr
    cases e with
    | block b =>
      have e1 : bs ++ Event.blocks (.block b :: es) = (bs ++ [b]) ++ Event.blocks es := by
        simp [Event.blocks]
      rw [e1] at wf
      refine ih (h.recordBlock b (WF.prefix' wf)) wf hr fun v => ?_
      obtain ⟨-, -, -, c4, -⟩ := recordBlock_closed b τ h.inv.pos
        (fun v => Int.le_trans (h.inv.creGe v) (h.inv.creLe v))
      rw [c4]; exact hfl v
    | endTimestep =>
      have e1 : Event.blocks (.endTimestep :: es : List (Event V T A)) = Event.blocks es := by
        simp [Event.blocks]
      rw [e1] at wf
      simp only [event] at hr
      split at hr
      · cases hr
      · rename_i τ₁ h₁
        have hl : τ.latest + 1 = τ.steps.length := by
          have := h.inv.pos
          unfold latest
          omega
        refine ih (h.endTimestep hl h₁) wf hr fun v => ?_
        obtain ⟨-, hloop⟩ := mgrEndTimestep_ok h₁
        obtain ⟨c, e⟩ := (endTimestepLoop_ended P out hloop).1.heap v
        rw [e]; exact hfl v

/-- A recording: checkpointing is enabled with schedule `sch` on an empty tape and the events `es` follow.  The
heap `h` is the one before recording, no variable of which was used or controlled before. -/
structure Recorded (sch : Schedule) (h : Heap V T A) (es : List (Event V T A)) (τ : CTape V T A) : Prop where
  wellFormed : sch.WellFormed
  unused : ∀ v, (h v).ckpt = none ∧ (h v).isControl = false ∧ (h v).marked = false ∧
    (h v).creation = -1 ∧ (h v).lastUse = -1
  ssa : WF (Event.blocks es)
  recorded : ∃ gc pk eager τ₀, gc ≠ some 0 ∧ enable sch gc pk h [] eager = .ok τ₀ ∧ recording es τ₀ = .ok τ

theorem Recorded.alive {sch : Schedule} {h : Heap V T A} {es : List (Event V T A)} {τ : CTape V T A}
    (hr : Recorded sch h es τ) (P : BV → Prop) :
    Alive P (fun v => (h v).output) sch (Event.blocks es) τ := by
  obtain ⟨gc, pk, eager, τ₀, hgc, h1, h2⟩ := hr.recorded
  have hf : Fresh P (fun v => (h v).output) h :=
    ⟨fun _ => rfl, fun v _ c hc => (by rw [(hr.unused v).1] at hc; cases hc),
      fun v => (hr.unused v).2.2.2.1, fun v => (hr.unused v).2.2.2.2⟩
  have t0 := taped_enable hf hgc h1
  have hwf : WF ([] ++ Event.blocks es) := hr.ssa
  have t1 := t0.recording es hwf h2
  rw [List.nil_append] at t1
  refine ⟨Or.inl t1, recording_flags es t0 hwf h2 fun v => ?_⟩
  unfold enable at h1
  split at h1
  · cases h1
  · split at h1
    · cases h1
    · split at h1
      · cases h1
      · obtain ⟨-, hloop⟩ := mgrEndTimestep_ok h1
        obtain ⟨c, e⟩ := (endTimestepLoop_ended P (fun v => (h v).output) hloop).1.heap v
        rw [e]; exact (hr.unused v).2.1

/-- Evaluating the functional of a tape in order: the state in which the sweep over the forward actions starts. -/
theorem Core.start [Add A] [Mul V] {P : BV → Prop} {out : BV → V} {N : Nat} {bs : Blocks V T A} {τ : CTape V T A}
    (hc : Core P out N bs τ) (hflags : ∀ v, (τ.heap v).isControl = false) (hmode : τ.mgr.mode ≠ .record) (hst : Stable P bs out)
    (truthy : V → Bool) {cs : List BV} (hcs : cs.Nodup) (hPcs : ∀ v, P v → v ∉ cs) (hinputs : ∀ c ∈ cs, ∀ b ∈ bs, c ∉ b.outs)
    (J : BV) (scale : V) {xs : List V} (hlen : xs.length = cs.length) {val : BV → V}
    (hctrl' : ∀ (i : Nat) c x, cs[i]? = some c → xs[i]? = some x → val c = x) (hsame : ∀ v, P v → val v = out v)
    (hrun : ∀ b ∈ bs, ∀ (i : Nat) o, b.outs[i]? = some o → b.recomputeC (b.deps.map val) i = some (val o))
    (hinit : ∀ s, τ.steps[0]? = some s → ∀ v ∈ s.state.elems, v ∈ cs ∨ P v) (hkept : (∀ b ∈ bs, J ∉ b.outs) → J ∈ cs ∨ P J) :
    ∃ τ₁ : CTape V T A, FEnv P out val N τ₁ ∧ FInv (if truthy (out J) then [J] else []) val 0 τ₁ ∧ Exact 0 N τ₁.mgr.fwd ∧
      τ₁.steps = τ.steps ∧ τ₁.mgr = { τ.mgr with mode := .recompute } ∧ (∀ c ∈ cs, saved τ₁.heap c = val c) ∧
      (∀ v, (τ₁.heap v).isControl = decide (v ∈ cs)) ∧ (∀ v, (τ₁.heap v).marked = (τ.heap v).marked) ∧
      ∀ τ₂, τ₁.mgr.fwd.foldlM (perform false (if truthy (out J) then [J] else [])) τ₁ = .ok τ₂ →
        rfCall truthy J cs scale xs τ = .ok (saved τ₂.heap J * scale, τ₂.onHeap (markControls cs false)) := by
  have hok := heapOK_call hPcs xs τ.heap
  have hc1 := hc.onHeap hok
  generalize hτ₁ : (τ.onHeap fun h => markControls cs true (updateControls cs xs h)) = τ₁ at hc1
  have hheap : τ₁.heap = markControls cs true (updateControls cs xs τ.heap) := by rw [← hτ₁]; rfl
  have hm₁ : τ₁.mgr.mode ≠ .record := by rw [← hτ₁]; exact hmode
  have hkeep : keepFunctional truthy J τ₁ = if truthy (out J) then [J] else [] := by
    unfold keepFunctional
    rw [hc1.clean.output]
  have hctl : ∀ v, (τ₁.heap v).isControl = decide (v ∈ cs) := by
    intro v
    rw [hheap, markControls_apply]
    split
    · rename_i hv; simp [hv]
    · rename_i hv
      rw [updateControls_isControl, hflags]
      simp [hv]
  have hx : ∀ c ∈ cs, saved τ₁.heap c = val c := by
    intro c hc
    obtain ⟨i, hi, rfl⟩ := List.mem_iff_getElem.1 hc
    have e : (τ₁.heap cs[i]).ckpt = some (xs[i]'(hlen ▸ hi)) := by
      rw [hheap, markControls_ckpt]
      exact updateControls_ckpt cs xs τ.heap hcs hlen (fun c _ => hflags c) i hi
    unfold saved
    rw [e]
    exact (hctrl' i _ _ (List.getElem?_eq_getElem hi) (List.getElem?_eq_getElem (hlen ▸ hi))).symm
  have hx0 := hc1.fwd
  have hpos := hc1.pos
  have hlt : 0 < τ₁.steps.length := by rw [hc1.length]; exact hpos
  generalize hs : τ₁.steps[0] = s
  have hs0 : τ₁.steps[0]? = some s := by rw [List.getElem?_eq_getElem hlt, hs]
  -- the state in which the sweep starts
  have hclean := restore_clean hc1.clean.cleanHeap (hc1.clean.stored s (List.mem_of_getElem? hs0))
  have hctrl : ∀ c ∈ cs, s.restore τ₁.heap c = τ₁.heap c := by
    intro c hc
    have : (τ₁.heap c).isControl = true := by rw [hctl]; simp [hc]
    unfold CStep.restore
    cases s.ckpt c with
    | none => rfl
    | some x => simp [CStep.restoreVar, this]
  have leaf : ∀ v, v ∈ cs ∨ P v → saved (s.restore τ₁.heap) v = val v := by
    rintro v (hvc | hv)
    · unfold saved
      rw [hctrl v hvc]
      exact hx v hvc
    · rw [hclean.saved hv, hsame v hv]
  have henv : FEnv P out val N { τ₁ with heap := s.restore τ₁.heap, mgr := { τ₁.mgr with mode := .recompute } } := by
    refine ⟨⟨hc1.live.dep, hc1.live.carry, hc1.live.init⟩, ⟨hclean.output, hclean.heap, hc1.clean.stored⟩,
      fun b hb => hst b (by have hb : b ∈ τ₁.blocks := hb
                            rwa [hc1.blocks] at hb), hsame, hc1.total, hc1.length, ?_, ?_⟩
    · intro b hb o ho
      have hb : b ∈ τ₁.blocks := hb
      rw [hc1.blocks] at hb
      obtain ⟨c, e⟩ := restore_frame s τ₁.heap o
      show (s.restore τ₁.heap o).isControl = false
      rw [e]
      dsimp only
      rw [hctl]
      simp only [decide_eq_false_iff_not]
      intro hoc
      exact hinputs o hoc b hb ho
    · intro b hb
      have hb : b ∈ τ₁.blocks := hb
      rw [hc1.blocks] at hb
      exact hrun b hb
  have hinv : FInv (if truthy (out J) then [J] else []) val 0 { τ₁ with heap := s.restore τ₁.heap, mgr := { τ₁.mgr with mode := .recompute } } := by
    refine ⟨fun s' hs' v hv => ?_, fun J' hJ' hno => ?_⟩
    · have hs' : τ₁.steps[0]? = some s' := hs'
      rw [hs0] at hs'
      cases hs'
      exact leaf v (hinit s (by rw [← hτ₁] at hs0; exact hs0) v hv)
    · have hJ'' : J' = J := by
        split at hJ'
        · exact List.mem_singleton.1 hJ'
        · cases hJ'
      subst hJ''
      apply leaf
      refine hkept fun b hb ho => ?_
      rw [← hc1.blocks] at hb
      obtain ⟨k, s₁, g1, g2⟩ := mem_blocks.1 hb
      exact hno k s₁ (Nat.zero_le _) g1 (CStep.mem_outs.2 ⟨b, g2, ho⟩)
  have hmk : ∀ v, (s.restore τ₁.heap v).marked = (τ.heap v).marked := by
    intro v
    obtain ⟨c, e⟩ := restore_frame s τ₁.heap v
    rw [e]
    dsimp only
    rw [hheap, markControls_apply]
    obtain ⟨c, e⟩ := updateControls_frame cs xs τ.heap v
    split <;> rw [e]
  refine ⟨_, henv, hinv, hx0, by rw [← hτ₁]; rfl, by rw [← hτ₁]; rfl, fun c hc => leaf c (Or.inl hc), fun v => ?_, hmk, fun τ₂ g1 => ?_⟩
  · obtain ⟨c, e⟩ := restore_frame s τ₁.heap v
    show (s.restore τ₁.heap v).isControl = _
    rw [e]
    exact hctl v
  have hsweep : forwardSweep (if truthy (out J) then [J] else []) { τ₁ with mgr := { τ₁.mgr with mode := .recompute } } = .ok τ₂ := by
    unfold forwardSweep
    dsimp only
    have hne : ∃ n1 wi wa st as, τ₁.mgr.fwd = .forward 0 n1 wi wa st :: as := by
      generalize τ₁.mgr.fwd = fw at hx0
      cases hx0 with
      | done => exact absurd hpos (Nat.lt_irrefl 0)
      | step => exact ⟨_, _, _, _, _, rfl⟩
      | last => exact ⟨_, _, _, _, _, rfl⟩
    obtain ⟨n1, wi, wa, st, as, e⟩ := hne
    split
    · rename_i e'
      rw [e] at e'
      cases e'
      rw [hs0]
      exact g1
    · rename_i h'
      exact absurd e (h' _ _ _ _ _ _)
  have hfin : finishTaping τ₁ = .ok τ₁ := by unfold finishTaping; rw [if_neg hm₁]
  unfold rfCall
  dsimp only
  rw [hτ₁, hkeep]
  unfold recomputeTape
  rw [hfin]
  dsimp only
  rw [hsweep]
  dsimp only
  have : saved (τ₂.onHeap (markControls cs false)).heap J = saved τ₂.heap J := by
    show saved (markControls cs false τ₂.heap) J = _
    unfold saved
    rw [markControls_apply]
    by_cases hJc : J ∈ cs
    · rw [if_pos hJc]
    · rw [if_neg hJc]
  rw [this]

/-- Evaluating the functional of a tape in order. -/
theorem Core.value [Add A] [Mul V] {P : BV → Prop} {out : BV → V} {N : Nat} {bs : Blocks V T A} {τ : CTape V T A}
    (hc : Core P out N bs τ) (hflags : ∀ v, (τ.heap v).isControl = false) (hmode : τ.mgr.mode ≠ .record) (hst : Stable P bs out)
    {truthy : V → Bool} {cs : List BV} (hcs : cs.Nodup) (hPcs : ∀ v, P v → v ∉ cs) (hinputs : ∀ c ∈ cs, ∀ b ∈ bs, c ∉ b.outs)
    {J : BV} (htruthy : truthy (out J) = true) (scale : V) {xs : List V} (hlen : xs.length = cs.length) {val : BV → V}
    (hctrl' : ∀ (i : Nat) c x, cs[i]? = some c → xs[i]? = some x → val c = x) (hsame : ∀ v, P v → val v = out v)
    (hrun : ∀ b ∈ bs, ∀ (i : Nat) o, b.outs[i]? = some o → b.recomputeC (b.deps.map val) i = some (val o))
    (hinit : ∀ s, τ.steps[0]? = some s → ∀ v ∈ s.state.elems, v ∈ cs ∨ P v) (hkept : (∀ b ∈ bs, J ∉ b.outs) → J ∈ cs ∨ P J) :
    ∃ τ', rfCall truthy J cs scale xs τ = .ok (val J * scale, τ') := by
  obtain ⟨τ₁, h1, h2, h3, -, -, -, -, -, h4⟩ := hc.start hflags hmode hst truthy hcs hPcs hinputs J scale hlen hctrl' hsame hrun hinit hkept
  obtain ⟨τ₂, g1, g2, g3, -⟩ := sweep_inv (m := false) h3 (Nat.zero_le _) h1 h2
  have hJ : saved τ₂.heap J = val J := by
    apply g3.kept J (by rw [if_pos htruthy]; simp)
    intro j s₁ hj hs₁
    have := lt_length hs₁
    rw [g2.length] at this
    omega
  exact ⟨_, by rw [h4 τ₂ g1, hJ]⟩

/-- **C25** (partial: see `zero_functional_stale` and `first_evaluation_stale` for the two hypotheses `htruthy`
and `hmode`).  Whatever was recorded, for every well-formed schedule and after any history, evaluating the reduced
functional succeeds and gives the value of the functional in the run of the recorded operations with the new
control values. -/
theorem checkpointed_value_partial [Add A] [Zero A] [Mul V] {sch : Schedule} {h : Heap V T A}
    {es : List (Event V T A)} {τ₀ τ : CTape V T A} (hr : Recorded sch h es τ₀)
    {truthy : V → Bool} {cs : List BV} (hh : History truthy cs τ₀ τ)
    (hmode : τ.mgr.mode ≠ .record)
    (hcs : cs.Nodup) (hinputs : ∀ c ∈ cs, ∀ b ∈ Event.blocks es, c ∉ b.outs)
    {J : BV} (htruthy : truthy (h J).output = true) (scale : V) {xs : List V} (hlen : xs.length = cs.length)
    {val : BV → V} (hrun : IsRun (Event.blocks es) cs xs (fun v => (h v).output) val) :
    ∃ τ', rfCall truthy J cs scale xs τ = .ok (val J * scale, τ') := by
  have hst := stable_input (Event.blocks es) cs (fun v => (h v).output)
  have hal := hh.alive hr.wellFormed hst (fun v hv => hv.1) (hr.alive (Input (Event.blocks es) cs))
  obtain ⟨N, hc⟩ : ∃ N, Core (Input (Event.blocks es) cs) (fun v => (h v).output) N (Event.blocks es) τ := by
    rcases hal.state with ht | ⟨-, hc⟩
    · exact ⟨_, (ht.core (Or.inl ⟨ht.track.mode.resolve_left hmode, rfl⟩) hr.wellFormed).1⟩
    · exact hc
  refine hc.value hal.flags hmode hst hcs (fun v hv => hv.1) hinputs htruthy scale hlen hrun.control (fun v hv => hrun.input v hv.1 hv.2) hrun.block
    (fun s hs v hv => ?_) fun hJ => ?_
  · have := hc.live.init s hs v hv
    rw [hc.blocks] at this
    exact (em (v ∈ cs)).imp_right fun h => ⟨h, this⟩
  · exact (em (J ∈ cs)).imp_right fun h => ⟨h, hJ⟩

/-- **C25**, comparing with the same program recorded without checkpointing: the value is that of the sweep over
the whole tape, provided every operation can be recomputed. -/
theorem checkpointed_value_as_without_partial [Add A] [Zero A] [Mul V] {sch : Schedule} {h : Heap V T A}
    {es : List (Event V T A)} {τ₀ τ : CTape V T A} (hr : Recorded sch h es τ₀)
    {truthy : V → Bool} {cs : List BV} (hh : History truthy cs τ₀ τ)
    (hmode : τ.mgr.mode ≠ .record)
    (hcs : cs.Nodup) (hinputs : ∀ c ∈ cs, ∀ b ∈ Event.blocks es, c ∉ b.outs)
    (htotal : ∀ b ∈ Event.blocks es, ∀ ys (i : Nat), ys.length = b.deps.length → i < b.outs.length → (b.recomputeC ys i).isSome)
    {J : BV} (htruthy : truthy (h J).output = true) (scale : V) {xs : List V}
    (hlen : xs.length = cs.length) :
    ∃ τ', rfCall truthy J cs scale xs τ =
      .ok (saved (rfEval (Event.blocks es) cs xs h) J * scale, τ') := by
  have hfl : ∀ v, (h v).isControl = false := fun v => (hr.unused v).2.1
  refine checkpointed_value_partial hr hh hmode hcs hinputs htruthy scale hlen
    (val := saved (rfEval (Event.blocks es) cs xs h)) ⟨?_, ?_, ?_⟩
  · intro i c x h1 h2
    obtain ⟨hi, rfl⟩ := List.getElem?_eq_some_iff.1 h1
    obtain ⟨hi', rfl⟩ := List.getElem?_eq_some_iff.1 h2
    unfold saved
    rw [rfEval_control _ _ _ _ hcs hlen (fun c _ => hfl c) i hi]
  · intro v hv ho
    unfold saved
    rw [rfEval_leaf _ _ _ _ _ hv ho, (hr.unused v).1]
  · intro b hb i o ho
    obtain ⟨hi, rfl⟩ := List.getElem?_eq_some_iff.1 ho
    have e := rfEval_block hr.ssa cs xs h hfl b hb (fun o ho hoc => hinputs o hoc b hb ho) i hi
    obtain ⟨y, hy⟩ := Option.isSome_iff_exists.1 (htotal b hb (b.deps.map (saved (rfEval (Event.blocks es) cs xs h))) i (by simp) hi)
    rw [hy] at e ⊢
    conv_rhs => unfold saved
    rw [e]
    rfl

/-! ### Non-vacuity and necessity of the hypotheses -/

/-- Enable and record. -/
def record (sch : Schedule) (h : Heap V T A) (es : List (Event V T A)) : Except CkptError (CTape V T A) :=
  match enable sch none false h [] false with
  | .error e => .error e
  | .ok τ => recording es τ

/-- The value returned. -/
def returned : Except CkptError (V × CTape V T A) → Option V
  | .error _ => none
  | .ok (y, _) => some y

def tapeOf (d : CTape V T A) : Except CkptError (CTape V T A) → CTape V T A
  | .error _ => d
  | .ok τ => τ

def isOk {α : Type*} : Except CkptError α → Bool
  | .error _ => false
  | .ok _ => true

theorem tapeOf_spec {d : CTape V T A} {r : Except CkptError (CTape V T A)} (h : isOk r = true) :
    r = .ok (tapeOf d r) := by
  cases r with
  | error e => cases h
  | ok τ => rfl

def emptyTape : CTape Int Int Int where
  heap := fun _ => { output := 0 }
  steps := []
  eager := false
  mgr := { acts := [], maxN := 0, afterFinal := fun _ => [], singleMem := false, exhausted := false,
           current := .endForward, fwd := [], total := none, gcFreq := none }

/-- A heap for recording given values. -/
def freshHeap (out : List Int) : Heap Int Int Int := fun v => { output := out.getD v 0 }

theorem recorded_of {sch : Schedule} {out : List Int} {es : List (Event Int Int Int)}
    (hw : sch.WellFormed) (hwf : WF (Event.blocks es)) (hok : isOk (record sch (freshHeap out) es) = true) :
    Recorded sch (freshHeap out) es (tapeOf emptyTape (record sch (freshHeap out) es)) := by
  refine ⟨hw, fun v => ⟨rfl, rfl, rfl, rfl, rfl⟩, hwf, none, false, false, ?_⟩
  have := tapeOf_spec (d := emptyTape) hok
  generalize tapeOf emptyTape _ = τ at this
  unfold record at this
  split at this
  · cases this
  · rename_i τ₀ h₀
    exact ⟨τ₀, by decide, h₀, this⟩

/-- A schedule for two steps keeping the start of the first in memory. -/
def twoSteps : Schedule where
  acts := [.forward 0 (some 2) true false .ram, .endForward]
  maxN := 2

theorem twoSteps_wellFormed : twoSteps.WellFormed :=
  Or.inl ⟨by decide, .step 0 2 2 _ _ _ _ (by decide) (by decide) (.done _ _)⟩

/-- Step 0 computes `J = x * x`, step 1 computes something else from `x`. -/
def exEarly : List (Event Int Int Int) :=
  [.block (mulBlk 0 0 1), .endTimestep, .block (mulBlk 0 0 2), .endTimestep]

theorem exEarly_wf : WF (Event.blocks exEarly) := by
  refine ⟨by decide, ?_, ?_⟩ <;> simp [exEarly, Event.blocks, mulBlk]

theorem exEarly_run (x : Int) (out : List Int) :
    IsRun (Event.blocks exEarly) [0] [x] (fun v => (freshHeap out v).output)
      (fun v => if v = 0 then x else if v = 1 ∨ v = 2 then x * x else (freshHeap out v).output) := by
  refine ⟨?_, ?_, ?_⟩
  · intro i c y h1 h2
    cases i with
    | zero => simp at h1 h2; subst h1; subst h2; rfl
    | succ i => simp at h1
  · intro v hv ho
    have h0 : v ≠ 0 := by simpa using hv
    have h1 : v ≠ 1 := by
      rintro rfl; exact ho (mulBlk 0 0 1) (by simp [exEarly, Event.blocks]) (by simp [mulBlk])
    have h2 : v ≠ 2 := by
      rintro rfl; exact ho (mulBlk 0 0 2) (by simp [exEarly, Event.blocks]) (by simp [mulBlk])
    simp [h0, h1, h2]
  · intro b hb i o ho
    simp only [exEarly, Event.blocks, List.mem_cons, List.not_mem_nil,
      or_false] at hb
    rcases hb with rfl | rfl <;>
    · cases i with
      | zero => simp [mulBlk] at ho; subst ho; rfl
      | succ i => simp [mulBlk] at ho

/-- The theorem applies: recorded at `x = 2`, evaluated at `x = 3` after evaluating and differentiating elsewhere. -/
example : returned (rfCall (fun x => x != 0) 1 [0] 1 [3]
    (tapeOf emptyTape (record twoSteps (freshHeap [2, 4, 4]) exEarly))) = some 9 := by
  obtain ⟨τ', h⟩ := checkpointed_value_partial
    (recorded_of (out := [2, 4, 4]) twoSteps_wellFormed exEarly_wf (by decide))
    (History.start (truthy := fun x : Int => x != 0) (cs := [0]) _) (by decide) (by decide)
    (by simp [exEarly, Event.blocks, mulBlk]) (J := 1) (by decide) 1 (xs := [3]) rfl (exEarly_run 3 [2, 4, 4])
  rw [h]
  rfl

/-- **C25 fails when the functional was recorded with value zero**: `if functional:` (`checkpointing.py:351`) is
false then, so the functional is not kept and the recorded value is returned: `J(x) = x²` recorded at `x = 0` gives
`J(3) = 0`. -/
theorem zero_functional_stale :
    ∃ (sch : Schedule) (h : Heap Int Int Int) (es : List (Event Int Int Int)) (τ : CTape Int Int Int)
      (val : BV → Int), Recorded sch h es τ ∧ τ.mgr.mode ≠ .record ∧
      (∀ b ∈ Event.blocks es, (0 : BV) ∉ b.outs) ∧
      IsRun (Event.blocks es) [0] [3] (fun v => (h v).output) val ∧
      val 1 = 9 ∧ returned (rfCall (fun x => x != 0) 1 [0] 1 [3] τ) = some 0 := by
  refine ⟨twoSteps, freshHeap [0, 0, 0], exEarly, _, _,
    recorded_of twoSteps_wellFormed exEarly_wf (by decide), by decide,
    by simp [exEarly, Event.blocks, mulBlk], exEarly_run 3 [0, 0, 0], by decide, by decide⟩

/-- Step 0 computes `u = x * x`, step 1 computes `J = u * u`; the last time step is not ended by the user. -/
def exLate : List (Event Int Int Int) :=
  [.block (mulBlk 0 0 1), .endTimestep, .block (mulBlk 1 1 2)]

theorem exLate_wf : WF (Event.blocks exLate) := by
  refine ⟨by decide, ?_, ?_⟩ <;> simp [exLate, Event.blocks, mulBlk]

theorem exLate_run (x : Int) (out : List Int) :
    IsRun (Event.blocks exLate) [0] [x] (fun v => (freshHeap out v).output)
      (fun v => if v = 0 then x else if v = 1 then x * x else if v = 2 then x * x * (x * x)
        else (freshHeap out v).output) := by
  refine ⟨?_, ?_, ?_⟩
  · intro i c y h1 h2
    cases i with
    | zero => simp at h1 h2; subst h1; subst h2; rfl
    | succ i => simp at h1
  · intro v hv ho
    have h0 : v ≠ 0 := by simpa using hv
    have h1 : v ≠ 1 := by
      rintro rfl; exact ho (mulBlk 0 0 1) (by simp [exLate, Event.blocks]) (by simp [mulBlk])
    have h2 : v ≠ 2 := by
      rintro rfl; exact ho (mulBlk 1 1 2) (by simp [exLate, Event.blocks]) (by simp [mulBlk])
    simp [h0, h1, h2]
  · intro b hb i o ho
    simp only [exLate, Event.blocks, List.mem_cons, List.not_mem_nil,
      or_false] at hb
    rcases hb with rfl | rfl <;>
    · cases i with
      | zero => simp [mulBlk] at ho; subst ho; rfl
      | succ i => simp [mulBlk] at ho

/-- **C25 fails for the first evaluation when recording has not been ended before**: the control has its new value
already when the manager ends the recording (`checkpointing.py:245-247`), which clears the last step's inputs
(`checkpointing.py:211-226`).  `J(x) = x⁴` recorded at `x = 2` gives `J(3) = 16`. -/
theorem first_evaluation_stale :
    ∃ (sch : Schedule) (h : Heap Int Int Int) (es : List (Event Int Int Int)) (τ : CTape Int Int Int)
      (val : BV → Int), Recorded sch h es τ ∧ τ.mgr.mode = .record ∧
      (∀ b ∈ Event.blocks es, (0 : BV) ∉ b.outs) ∧
      IsRun (Event.blocks es) [0] [3] (fun v => (h v).output) val ∧ (h 2).output = 16 ∧
      val 2 = 81 ∧ returned (rfCall (fun x => x != 0) 2 [0] 1 [3] τ) = some 16 := by
  refine ⟨twoSteps, freshHeap [2, 4, 16], exLate, _, _,
    recorded_of twoSteps_wellFormed exLate_wf (by decide), by decide,
    by simp [exLate, Event.blocks, mulBlk], exLate_run 3 [2, 4, 16], by decide, by decide, by decide⟩

end CTape
end Pyadjoint
