import Verif.Model.CheckpointInPlace
import Verif.Props.CheckpointGradient

/-!
# C90: mutable objects under checkpointing
-/

namespace Pyadjoint
namespace CTape

variable {V T A : Type*}

/-! ## Changes of objects that do not matter -/

/-- The outputs after a change. -/
def changed (vs : List BV) (x : V) (out : BV → V) : BV → V := fun v => if v ∈ vs then x else out v

theorem change_heap (vs : List BV) (x : V) (τ : CTape V T A) (v : BV) :
    (τ.change vs x).heap v = { τ.heap v with output := changed vs x (fun v => (τ.heap v).output) v } := by
  unfold CTape.change CTape.onHeap changed
  dsimp only
  split <;> rfl

theorem LInv.change {τ : CTape V T A} (h : LInv τ) (vs : List BV) (x : V) : LInv (τ.change vs x) := by
  have hc : ∀ v, ((τ.change vs x).heap v).creation = (τ.heap v).creation := fun v => by rw [change_heap]
  have hl : ∀ v, ((τ.change vs x).heap v).lastUse = (τ.heap v).lastUse := fun v => by rw [change_heap]
  refine ⟨h.pos, ?_, ?_, ?_, ?_, ?_, ?_, ?_, ?_⟩
  · intro v; rw [hc]; exact h.creGe v
  · intro v; rw [hc, hl]; exact h.creLe v
  · intro v; rw [hl]; exact h.lastLe v
  · intro v; rw [hl]; exact h.used v
  · intro k s hs v; rw [hc, hl]; exact h.state k s hs v
  · intro k s hs pre b post hb d hd; rw [hc, hl]; exact h.deps k s hs pre b post hb d hd
  · intro k s hs v; rw [hc]; exact h.outs k s hs v
  · intro v; rw [hc]; exact h.created v

theorem Clean.change {P : BV → Prop} {out : BV → V} {τ : CTape V T A} (h : Clean P out τ) {vs : List BV}
    (hvs : ∀ v ∈ vs, ¬ P v) (x : V) : Clean P (changed vs x out) (τ.change vs x) := by
  have hP : ∀ v, P v → changed vs x out v = out v := fun v hv => if_neg fun hm => hvs v hm hv
  refine ⟨?_, ?_, ?_⟩
  · intro v
    rw [change_heap]
    show changed vs x (fun v => (τ.heap v).output) v = _
    unfold changed
    split
    · rfl
    · exact h.output v
  · intro v hv c hc
    rw [change_heap] at hc
    rw [hP v hv]; exact h.heap v hv c hc
  · intro s hs v hv c hc
    rw [hP v hv]; exact h.stored s hs v hv c hc

theorem Taped.change {P : BV → Prop} {out : BV → V} {sch : Schedule} {bs : Blocks V T A} {τ : CTape V T A}
    (h : Taped P out sch bs τ) {vs : List BV} (hvs : ∀ v ∈ vs, ¬ P v) (x : V) :
    Taped P (changed vs x out) sch bs (τ.change vs x) :=
  ⟨h.inv.change vs x, h.clean.change hvs x, h.track.onHeap, h.noEnd, h.maxN, h.afterFinal, h.gcFreq, h.blocks,
    h.unbounded⟩

theorem LiveOK.change {P : BV → Prop} {τ : CTape V T A} (h : LiveOK P τ) (vs : List BV) (x : V) :
    LiveOK P (τ.change vs x) := ⟨h.dep, h.carry, h.init⟩

theorem Core.change {P : BV → Prop} {out : BV → V} {N : Nat} {bs : Blocks V T A} {τ : CTape V T A}
    (h : Core P out N bs τ) {vs : List BV} (hvs : ∀ v ∈ vs, ¬ P v) (x : V) :
    Core P (changed vs x out) N bs (τ.change vs x) :=
  ⟨h.pos, h.live.change vs x, h.total, h.length, h.fwd, h.clean.change hvs x, h.blocks⟩

theorem Alive.change {P : BV → Prop} {out : BV → V} {sch : Schedule} {bs : Blocks V T A} {τ : CTape V T A}
    (h : Alive P out sch bs τ) {vs : List BV} (hvs : ∀ v ∈ vs, ¬ P v) (x : V) :
    Alive P (changed vs x out) sch bs (τ.change vs x) := by
  refine ⟨?_, fun v => by rw [change_heap]; exact h.flags v⟩
  rcases h.state with ht | ⟨hm, N, hc⟩
  · exact Or.inl (ht.change hvs x)
  · exact Or.inr ⟨hm, N, hc.change hvs x⟩

/-! ## Recordings and histories with changes -/

theorem Taped.mrecording {P : BV → Prop} {sch : Schedule} (es : List (MEvent V T A)) :
    ∀ {out : BV → V} {bs : Blocks V T A} {τ τ' : CTape V T A}, Taped P out sch bs τ →
    WF (bs ++ MEvent.blocks es) → (∀ vs x, .change vs x ∈ es → ∀ v ∈ vs, ¬ P v) →
    (∀ v, (τ.heap v).isControl = false) → CTape.mrecording es τ = .ok τ' →
    ∃ out', Taped P out' sch (bs ++ MEvent.blocks es) τ' ∧ (∀ v, P v → out' v = out v) ∧
      ∀ v, (τ'.heap v).isControl = false := by
  induction es with
  | nil =>
    intro out bs τ τ' h _ _ hfl hr
    simp only [CTape.mrecording, Except.ok.injEq] at hr
    subst hr
    exact ⟨out, by simpa [MEvent.blocks] using h, fun _ _ => rfl, hfl⟩
  | cons e es ih =>
    intro out bs τ τ' h wf hch hfl hr
    have hch' : ∀ vs x, .change vs x ∈ es → ∀ v ∈ vs, ¬ P v :=
      fun vs x hm => hch vs x (List.mem_cons_of_mem _ hm)
    cases e with
    | change vs x =>
      have hvs := hch vs x (List.mem_cons_self ..)
      obtain ⟨out', h1, h2, h3⟩ := ih (h.change hvs x) wf hch'
        (fun v => by rw [change_heap]; exact hfl v) hr
      refine ⟨out', h1, fun v hv => (h2 v hv).trans ?_, h3⟩
      exact if_neg fun hm => hvs v hm hv
    | event e =>
      simp only [CTape.mrecording, mevent] at hr
      cases he : τ.event e with
      | error err => rw [he] at hr; cases hr
      | ok τ₁ =>
        rw [he] at hr
        have hone : CTape.recording [e] τ = .ok τ₁ := by
          rw [recording_cons, he]; rfl
        cases e with
        | block b =>
          have e1 : bs ++ MEvent.blocks (.event (.block b) :: es) = (bs ++ [b]) ++ MEvent.blocks es := by
            simp [MEvent.blocks]
          rw [e1] at wf ⊢
          have hb : Event.blocks [Event.block b] = [b] := by simp [Event.blocks]
          have wf1 := WF.prefix' wf
          exact ih (by have := h.recording [.block b] (by rw [hb]; exact wf1) hone; rwa [hb] at this) wf hch'
            (recording_flags [.block b] h (by rw [hb]; exact wf1) hone hfl) hr
        | endTimestep =>
          have hb : Event.blocks [(Event.endTimestep : Event V T A)] = [] := by simp [Event.blocks]
          have wf0 : WF (bs ++ Event.blocks [(Event.endTimestep : Event V T A)]) := by
            rw [hb, List.append_nil]; exact WF.prefix' wf
          exact ih (by have := h.recording [.endTimestep] wf0 hone; rwa [hb, List.append_nil] at this) wf hch'
            (recording_flags [.endTimestep] h wf0 hone hfl) hr

/-- A recording with changes of objects: checkpointing is enabled with schedule `sch` on an empty tape and the events
`es` follow.  The heap `h` is the one before recording, no variable of which was used or controlled before. -/
structure MRecorded (sch : Schedule) (h : Heap V T A) (es : List (MEvent V T A)) (τ : CTape V T A) : Prop where
  wellFormed : sch.WellFormed
  unused : ∀ v, (h v).ckpt = none ∧ (h v).isControl = false ∧ (h v).marked = false ∧
    (h v).creation = -1 ∧ (h v).lastUse = -1
  ssa : WF (MEvent.blocks es)
  recorded : ∃ gc pk eager τ₀, gc ≠ some 0 ∧ enable sch gc pk h [] eager = .ok τ₀ ∧ CTape.mrecording es τ₀ = .ok τ

/-- Evaluations and derivatives, with changes of objects in between. -/
inductive MHistory [Add A] [Zero A] [Mul V] (truthy : V → Bool) (cs : List BV) (may : BV → Prop) :
    CTape V T A → CTape V T A → Prop
  | start (τ) : MHistory truthy cs may τ τ
  | call {τ₀ τ τ' : CTape V T A} {J scale xs y} (h : MHistory truthy cs may τ₀ τ)
      (hr : rfCall truthy J cs scale xs τ = .ok (y, τ')) : MHistory truthy cs may τ₀ τ'
  | derivative {τ₀ τ τ' : CTape V T A} {J a ds} (h : MHistory truthy cs may τ₀ τ)
      (hr : rfDerivative J cs a τ = .ok (ds, τ')) : MHistory truthy cs may τ₀ τ'
  | change {τ₀ τ : CTape V T A} (vs : List BV) (x : V) (h : MHistory truthy cs may τ₀ τ)
      (hvs : ∀ v ∈ vs, may v) : MHistory truthy cs may τ₀ (τ.change vs x)

theorem MHistory.alive [Add A] [Zero A] [Mul V] {sch : Schedule} (hwf : sch.WellFormed) {bs : Blocks V T A}
    {truthy : V → Bool} {cs : List BV} {τ τ' : CTape V T A}
    (hh : MHistory truthy cs (fun v => ¬ Input bs cs v) τ τ') {out : BV → V}
    (h : Alive (Input bs cs) out sch bs τ) :
    ∃ out', Alive (Input bs cs) out' sch bs τ' ∧ ∀ v, Input bs cs v → out' v = out v := by
  induction hh with
  | start => exact ⟨out, h, fun _ _ => rfl⟩
  | call _ hr ih =>
    obtain ⟨out', h1, h2⟩ := ih
    exact ⟨out', (rfCall_alive hwf (stable_input bs cs out') (fun v hv => hv.1) h1 hr).1, h2⟩
  | derivative _ hr ih =>
    obtain ⟨out', h1, h2⟩ := ih
    exact ⟨out', (rfDerivative_alive hwf (stable_input bs cs out') h1 hr).1, h2⟩
  | change vs x _ hvs ih =>
    obtain ⟨out', h1, h2⟩ := ih
    refine ⟨changed vs x out', h1.change hvs x, fun v hv => ?_⟩
    rw [← h2 v hv]
    exact if_neg fun hm => hvs v hm hv

/-- **C90, values** (partial: see `overwritten_forcing_value_wrong` for the hypothesis on the objects changed).  Programs
with mutable objects under checkpointing: for every well-formed schedule and after any history of evaluations, derivatives
and changes, evaluating the reduced functional gives the value of the functional in the run of the recorded
operations with the new control values, provided that the objects changed hold results of operations or controls:
whatever is changed is not an input other than the controls. -/
theorem in_place_checkpointed_value_partial [Add A] [Zero A] [Mul V] {sch : Schedule} {h : Heap V T A}
    {es : List (MEvent V T A)} {τ₀ τ : CTape V T A} (hr : MRecorded sch h es τ₀) {truthy : V → Bool} {cs : List BV}
    (hchange : ∀ vs x, .change vs x ∈ es → ∀ v ∈ vs, v ∈ cs ∨ ∃ b ∈ MEvent.blocks es, v ∈ b.outs)
    (hh : MHistory truthy cs (fun v => v ∈ cs ∨ ∃ b ∈ MEvent.blocks es, v ∈ b.outs) τ₀ τ)
    (hmode : τ.mgr.mode ≠ .record) (hcs : cs.Nodup) (hinputs : ∀ c ∈ cs, ∀ b ∈ MEvent.blocks es, c ∉ b.outs)
    {J : BV} (htruthy : truthy (τ.heap J).output = true) (scale : V) {xs : List V} (hlen : xs.length = cs.length)
    {val : BV → V} (hrun : IsRun (MEvent.blocks es) cs xs (fun v => (h v).output) val) :
    ∃ τ', rfCall truthy J cs scale xs τ = .ok (val J * scale, τ') := by
  have hnot : ∀ v, (v ∈ cs ∨ ∃ b ∈ MEvent.blocks es, v ∈ b.outs) ↔ ¬ Input (MEvent.blocks es) cs v := by
    intro v
    unfold Input
    constructor
    · rintro (h | ⟨b, hb, h⟩) ⟨h1, h2⟩
      · exact h1 h
      · exact h2 b hb h
    · intro hn
      by_contra hc
      simp only [not_or, not_exists, not_and] at hc
      exact hn ⟨hc.1, hc.2⟩
  obtain ⟨gc, pk, eager, τ', hgc, h1, h2⟩ := hr.recorded
  have hf : Fresh (Input (MEvent.blocks es) cs) (fun v => (h v).output) h :=
    ⟨fun _ => rfl, fun v _ c hc => (by rw [(hr.unused v).1] at hc; cases hc),
      fun v => (hr.unused v).2.2.2.1, fun v => (hr.unused v).2.2.2.2⟩
  have t0 := taped_enable hf hgc h1
  have hfl0 : ∀ v, (τ'.heap v).isControl = false := by
    intro v
    unfold enable at h1
    split at h1
    · cases h1
    · split at h1
      · cases h1
      · split at h1
        · cases h1
        · obtain ⟨-, hloop⟩ := mgrEndTimestep_ok h1
          obtain ⟨c, e⟩ := (endTimestepLoop_ended (Input (MEvent.blocks es) cs) (fun v => (h v).output) hloop).1.heap v
          rw [e]; exact (hr.unused v).2.1
  obtain ⟨out₁, t1, t2, t3⟩ := t0.mrecording es hr.ssa
    (fun vs x hm v hv => (hnot v).1 (hchange vs x hm v hv)) hfl0 h2
  obtain ⟨out, hal, hsame⟩ := MHistory.alive (bs := MEvent.blocks es) (cs := cs) hr.wellFormed
    (by simpa only [hnot] using hh) (⟨Or.inl t1, t3⟩ : Alive _ out₁ sch (MEvent.blocks es) τ₀)
  obtain ⟨N, hc⟩ : ∃ N, Core (Input (MEvent.blocks es) cs) out N (MEvent.blocks es) τ := by
    rcases hal.state with ht | ⟨-, hc⟩
    · exact ⟨_, (ht.core (Or.inl ⟨ht.track.mode.resolve_left hmode, rfl⟩) hr.wellFormed).1⟩
    · exact hc
  refine hc.value hal.flags hmode (stable_input _ cs out) hcs (fun v hv => hv.1) hinputs
    (by rw [← hc.clean.output J]; exact htruthy) scale hlen hrun.control
    (fun v hv => (hrun.input v hv.1 hv.2).trans ((t2 v hv).symm.trans (hsame v hv).symm)) hrun.block
    (fun s hs v hv => ?_) fun hJ => ?_
  · have := hc.live.init s hs v hv
    rw [hc.blocks] at this
    exact (em (v ∈ cs)).imp_right fun h => ⟨h, this⟩
  · exact (em (J ∈ cs)).imp_right fun h => ⟨h, hJ⟩

/-! ## Examples and counterexamples -/

/-- Enable and record, with changes. -/
def mrecord (sch : Schedule) (h : Heap V T A) (es : List (MEvent V T A)) : Except CkptError (CTape V T A) :=
  match enable sch none false h [] false with
  | .error e => .error e
  | .ok τ => mrecording es τ

theorem mrecorded_of {sch : Schedule} {out : List Int} {es : List (MEvent Int Int Int)}
    (hw : sch.WellFormed) (hwf : WF (MEvent.blocks es)) (hok : isOk (mrecord sch (freshHeap out) es) = true) :
    MRecorded sch (freshHeap out) es (tapeOf emptyTape (mrecord sch (freshHeap out) es)) := by
  refine ⟨hw, fun v => ⟨rfl, rfl, rfl, rfl, rfl⟩, hwf, none, false, false, ?_⟩
  have := tapeOf_spec (d := emptyTape) hok
  generalize tapeOf emptyTape _ = τ at this
  unfold mrecord at this
  split at this
  · cases this
  · rename_i τ₀ h₀
    exact ⟨τ₀, by decide, h₀, this⟩

/-- `u` holds 2; step 0: `u *= u` in place; step 1: `u *= u` in place.  Block variables 0, 1, 2 are all made of `u`. -/
def inPlacePower : List (MEvent Int Int Int) :=
  [.event (.block (mulBlk 0 0 1)), .change [0] 4, .event .endTimestep,
    .event (.block (mulBlk 1 1 2)), .change [0, 1] 16, .event .endTimestep]


theorem inPlacePower_recorded : MRecorded multistage2 (freshHeap [2, 4, 16]) inPlacePower
    (tapeOf emptyTape (mrecord multistage2 (freshHeap [2, 4, 16]) inPlacePower)) :=
  mrecorded_of multistage2_wellFormed exPower_wf (by decide +kernel)

/-- The theorem applies to `inPlacePower`: recorded at `u = 2`, evaluated at 3, after `u` was given the value 7. -/
example : returned (rfCall (fun x => x != 0) 2 [0] 1 [3]
    ((tapeOf emptyTape (mrecord multistage2 (freshHeap [2, 4, 16]) inPlacePower)).change [0, 1, 2] 7)) = some 81 := by
  obtain ⟨τ', h⟩ := in_place_checkpointed_value_partial inPlacePower_recorded (truthy := fun x : Int => x != 0)
    (cs := [0]) (by
      intro vs x hm v hv
      simp only [inPlacePower, List.mem_cons, MEvent.change.injEq, reduceCtorEq, List.not_mem_nil, or_false,
        false_or] at hm
      rcases hm with ⟨rfl, -⟩ | ⟨rfl, -⟩ <;> simp at hv
      · exact Or.inl (by simp [hv])
      · rcases hv with rfl | rfl
        · exact Or.inl (by simp)
        · exact Or.inr ⟨mulBlk 0 0 1, by simp [inPlacePower, MEvent.blocks], by simp [mulBlk]⟩)
    (.change [0, 1, 2] 7 (.start _) (by
      intro v hv
      simp only [List.mem_cons, List.not_mem_nil, or_false] at hv
      rcases hv with rfl | rfl | rfl
      · exact Or.inl (by simp)
      · exact Or.inr ⟨mulBlk 0 0 1, by simp [inPlacePower, MEvent.blocks], by simp [mulBlk]⟩
      · exact Or.inr ⟨mulBlk 1 1 2, by simp [inPlacePower, MEvent.blocks], by simp [mulBlk]⟩))
    (by decide +kernel) (by decide) (by simp [inPlacePower, MEvent.blocks, mulBlk]) (J := 2) (by decide +kernel) 1
    (xs := [3]) rfl (exLate_run 3 [2, 4, 16])
  rw [h]
  rfl

/-- **The derivative at the recorded point is wrong after an evaluation there**, if objects are changed in place:
`u *= u` twice from `u = 2`, `J = u`.  Evaluating at 2 gives 16, but the derivative that follows is 128 and not 32: the state
forgotten by `process_operation` for `Forward` (see `multistage_gradient_stale`) is now read from an object changed since. -/
theorem in_place_gradient_wrong :
    ∃ (sch : Schedule) (h : Heap Int Int Int) (es : List (MEvent Int Int Int)) (τ : CTape Int Int Int),
      MRecorded sch h es τ ∧ sch.Reverses ∧ τ.mgr.mode ≠ .record ∧
      (∀ vs x, .change vs x ∈ es → ∀ v ∈ vs, v ∈ [0] ∨ ∃ b ∈ MEvent.blocks es, v ∈ b.outs) ∧
      (computeGradient (MEvent.blocks es) 2 [0] 1 (rfEval (MEvent.blocks es) [0] [2] h)).1 = [32] ∧
      callThenDerivative 2 2 τ = some (16, [128]) := by
  refine ⟨multistage2, freshHeap [2, 4, 16], inPlacePower, _, inPlacePower_recorded, multistage2_reverses,
    by decide +kernel, ?_, by decide +kernel, by decide +kernel⟩
  intro vs x hm v hv
  simp only [inPlacePower, List.mem_cons, MEvent.change.injEq, reduceCtorEq, List.not_mem_nil, or_false,
    false_or] at hm
  rcases hm with ⟨rfl, -⟩ | ⟨rfl, -⟩ <;> simp at hv
  · exact Or.inl (by simp [hv])
  · rcases hv with rfl | rfl
    · exact Or.inl (by simp)
    · exact Or.inr ⟨mulBlk 0 0 1, by simp [inPlacePower, MEvent.blocks], by simp [mulBlk]⟩

/-- A multistage schedule for three steps with one checkpoint. -/
def multistage3 : Schedule where
  acts := [.forward 0 (some 2) true false .ram, .forward 2 (some 3) false true .work, .endForward, .reverse 3 2 true,
    .copy 0 .ram, .forward 0 (some 1) false false .none, .forward 1 (some 2) false true .work, .reverse 2 1 true,
    .move 0 .ram, .forward 0 (some 1) false true .work, .reverse 1 0 true, .endReverse]
  maxN := 3

theorem multistage3_wellFormed : multistage3.WellFormed :=
  Or.inl ⟨by decide, .step 0 2 3 _ _ _ _ (by decide) (by decide)
    (.step 2 3 3 _ _ _ _ (by decide) (by decide) (.done _ _))⟩

theorem multistage3_reverses : multistage3.Reverses := by
  rintro N hN (h | rfl)
  · cases h
  · decide

/-- `u` is multiplied by the forcing `f` in each of three steps; `f` is 1, then 10, then 100, set between the steps inside
`stop_annotating(modifies=f)`.  Block variables 1, 3, 5 are made of `f`. -/
def forced : List (MEvent Int Int Int) :=
  [.event (.block (mulBlk 0 1 2)), .event .endTimestep, .change [1] 10, .event (.block (mulBlk 2 3 4)),
    .event .endTimestep, .change [1, 3] 100, .event (.block (mulBlk 4 5 6)), .event .endTimestep]

theorem forced_wf : WF (MEvent.blocks forced) := by
  refine ⟨by decide, ?_, ?_⟩ <;> simp [forced, MEvent.blocks, mulBlk]

/-- **Inputs other than controls must not be changed**: with a forcing that is set anew in each step, announced as
documented, the functional recorded as 2000 is 20000 when evaluated at the recorded point, and the derivative is 10000 and
not 1000, also directly after recording.  The value of `f` used in step 1 is in no stored checkpoint and is cleared from its block variable, so that
the replay reads the object, which holds the last value (`checkpointing.py:160-225`, `block_variable.py:57-62`). -/
theorem overwritten_forcing_value_wrong :
    ∃ (sch : Schedule) (h : Heap Int Int Int) (es : List (MEvent Int Int Int)) (τ : CTape Int Int Int),
      MRecorded sch h es τ ∧ sch.Reverses ∧ τ.mgr.mode ≠ .record ∧
      saved (rfEval (MEvent.blocks es) [0] [2] h) 6 = 2000 ∧
      returned (rfCall (fun x => x != 0) 6 [0] 1 [2] τ) = some 20000 ∧
      (computeGradient (MEvent.blocks es) 6 [0] 1 (rfEval (MEvent.blocks es) [0] [2] h)).1 = [1000] ∧
      derivatives (rfDerivative 6 [0] 1 τ) = some [10000] := by
  exact ⟨multistage3, freshHeap [2, 1, 2, 10, 20, 100, 2000], forced, _,
    mrecorded_of multistage3_wellFormed forced_wf (by decide +kernel), multistage3_reverses, by decide +kernel,
    by decide +kernel, by decide +kernel, by decide +kernel, by decide +kernel⟩

/-! ## Results saved as soon as they are computed -/

theorem depends_ckpt_other (ds : List BV) {o : BV} (ho : o ∉ ds) (τ : CTape V T A) :
    ((ds.foldl (fun τ v => τ.depend v) τ).heap o) = τ.heap o ∧ (ds.foldl (fun τ v => τ.depend v) τ).eager = τ.eager := by
  induction ds generalizing τ with
  | nil => exact ⟨rfl, rfl⟩
  | cons d ds ih =>
    obtain ⟨h1, h2⟩ := ih (fun h => ho (List.mem_cons_of_mem _ h)) (τ.depend d)
    have hne : o ≠ d := fun h => ho (h ▸ List.mem_cons_self ..)
    refine ⟨h1.trans ?_, h2⟩
    unfold depend saveOutput
    dsimp only
    rw [Function.update_of_ne hne]
    split
    · rw [Function.update_of_ne hne]
    · rfl

theorem outputs_ckpt (os : List BV) (o : BV) (τ : CTape V T A) :
    ((os.foldl (fun τ v => τ.output v) τ).heap o).ckpt =
      (if o ∈ os ∧ τ.eager = true then some (τ.heap o).output else (τ.heap o).ckpt) ∧
    ((os.foldl (fun τ v => τ.output v) τ).heap o).output = (τ.heap o).output := by
  induction os generalizing τ with
  | nil => exact ⟨by simp, rfl⟩
  | cons a os ih =>
    obtain ⟨h1, h2⟩ := ih (τ.output a)
    have e1 : (τ.output a).eager = τ.eager := rfl
    have e2 : ((τ.output a).heap o).output = (τ.heap o).output := by
      unfold CTape.output saveOutput
      by_cases h : o = a
      · subst h
        dsimp only
        split <;> simp
      · dsimp only
        split <;> simp [h]
    have e3 : ((τ.output a).heap o).ckpt = if o = a ∧ τ.eager = true then some (τ.heap o).output else (τ.heap o).ckpt := by
      unfold CTape.output saveOutput
      by_cases h : o = a
      · subst h
        dsimp only
        split <;> simp_all
      · dsimp only
        split <;> simp [h]
    refine ⟨?_, h2.trans e2⟩
    show ((os.foldl (fun τ v => τ.output v) (τ.output a)).heap o).ckpt = _
    rw [h1, e1, e2, e3]
    by_cases ha : o = a <;> by_cases hos : o ∈ os <;> by_cases he : τ.eager = true <;> simp [ha, hos, he] <;> simp_all

/-- **C90, results**: while an action that keeps what the adjoint needs is taped, the result of an operation is saved with the
operation, so that overwriting the object that holds it does not matter; otherwise nothing is saved before the result is
used, and the tape knows the object only. -/
theorem recorded_result_overwritten (τ : CTape V T A) (b : Block V T A) {o : BV} (ho : o ∈ b.outs) (hd : o ∉ b.deps)
    (hfresh : (τ.heap o).ckpt = none) (vs : List BV) (hvs : o ∈ vs) (x : V) :
    saved ((τ.recordBlock b).change vs x).heap o = if τ.eager = true then (τ.heap o).output else x := by
  obtain ⟨h1, h2⟩ := depends_ckpt_other b.deps hd τ
  obtain ⟨h3, -⟩ := outputs_ckpt b.outs o ((b.deps.foldl (fun τ v => τ.depend v) τ).addBlock b)
  have e1 : ((b.deps.foldl (fun τ v => τ.depend v) τ).addBlock b).heap o = τ.heap o := h1
  have e2 : ((b.deps.foldl (fun τ v => τ.depend v) τ).addBlock b).eager = τ.eager := h2
  rw [e1, e2] at h3
  have h4 : (((τ.recordBlock b).change vs x).heap o).ckpt = ((τ.recordBlock b).heap o).ckpt := by rw [change_heap]
  have h5 : (((τ.recordBlock b).change vs x).heap o).output = x := by
    rw [change_heap]; exact if_pos hvs
  have h6 : ((τ.recordBlock b).heap o).ckpt = if o ∈ b.outs ∧ τ.eager = true then some (τ.heap o).output else (τ.heap o).ckpt := h3
  unfold saved
  rw [h4, h5, h6, hfresh]
  by_cases he : τ.eager = true <;> simp [he, ho]

/-- `J = u * u` and then `u` and `J` overwritten with 7, on a tape that keeps results and on one that does not. -/
example : saved (({ emptyTape with heap := freshHeap [3, 9], eager := true }.recordBlock (mulBlk 0 0 1)).change [0, 1] 7).heap 1 = 9 ∧
    saved (({ emptyTape with heap := freshHeap [3, 9] }.recordBlock (mulBlk 0 0 1)).change [0, 1] 7).heap 1 = 7 :=
  ⟨recorded_result_overwritten _ _ (by simp [mulBlk]) (by simp [mulBlk]) rfl _ (by simp) _,
    recorded_result_overwritten _ _ (by simp [mulBlk]) (by simp [mulBlk]) rfl _ (by simp) _⟩


end CTape
end Pyadjoint
