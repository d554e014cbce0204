import Verif.Proofs.CkptOptimise
import Verif.Props.CheckpointGradient

/-!
# C71: optimising a tape with checkpointing

A checkpointed tape may be optimised for a functional and its controls (`ReducedFunctional.optimize_tape`) at any time after recording.
Evaluations then still give the value of the recorded program (`optimised_value_partial`), and derivatives at the recorded control
values are the ones of the recorded program (`optimised_gradient_partial`).  At other control values the first derivative after
the optimisation is computed from recorded values of intermediate variables, without an error, although the same schedule gives the
right derivative if the tape is not optimised (`optimised_gradient_stale`).
-/

namespace Pyadjoint
namespace CTape

variable {V T A : Type*}

/-- What the user may do with a recorded tape: evaluate and differentiate reduced functionals that have the controls `cs`, and optimise
the tape for one of them, that of `J`, in any order. -/
inductive OptHistory [Add A] [Zero A] [Mul V] (truthy : V → Bool) (cs : List BV) (J : BV) : CTape V T A → CTape V T A → Prop
  | start (τ) : OptHistory truthy cs J τ τ
  | call {τ₀ τ τ' : CTape V T A} {J' scale xs y} (h : OptHistory truthy cs J τ₀ τ)
      (hr : rfCall truthy J' cs scale xs τ = .ok (y, τ')) : OptHistory truthy cs J τ₀ τ'
  | derivative {τ₀ τ τ' : CTape V T A} {J' a ds} (h : OptHistory truthy cs J τ₀ τ)
      (hr : rfDerivative J' cs a τ = .ok (ds, τ')) : OptHistory truthy cs J τ₀ τ'
  | optimize {τ₀ τ τ' : CTape V T A} (h : OptHistory truthy cs J τ₀ τ) (hm : τ.mgr.mode ≠ .record)
      (ho : τ.optimizeTape J cs = some τ') : OptHistory truthy cs J τ₀ τ'

theorem indep_of_leaf {bs : Blocks V T A} {cs : List BV} {v : BV} (h : ∀ b ∈ bs, v ∉ b.outs) : v ∈ cs ∨ Indep bs cs v := by
  by_cases hc : v ∈ cs
  · exact Or.inl hc
  · refine Or.inr fun hr => ?_
    cases hr with
    | base h => exact hc h
    | step hb _ _ ho => exact h _ hb ho

theorem Alive.thinned {bs : Blocks V T A} {cs : List BV} {out : BV → V} {sch : Schedule} (hwf : sch.WellFormed)
    {τ : CTape V T A} (h : Alive (Indep bs cs) out sch bs τ) (hm : τ.mgr.mode ≠ .record) (J : BV) : Thinned bs cs J out τ := by
  obtain ⟨N, hc⟩ : ∃ N, Core (Indep bs cs) out N bs τ := by
    rcases h.state with ht | ⟨-, hc⟩
    · exact ⟨_, (ht.core (Or.inl ⟨ht.track.mode.resolve_left hm, rfl⟩) hwf).1⟩
    · exact hc
  have hb := hc.blocks
  refine ⟨hm, ⟨N, by rw [hb]; exact hc⟩, h.flags, by rw [hb], fun s hs v hv => ?_, fun hJ => ?_⟩
  · exact indep_of_leaf fun b hbb => hc.live.init s hs v hv b (by rw [hb]; exact hbb)
  · exact indep_of_leaf fun b hbb => hJ b (by rw [hb]; exact hbb)

theorem OptHistory.state [Add A] [Zero A] [Mul V] {truthy : V → Bool} {cs : List BV} {J : BV} {bs : Blocks V T A} (wf : WF bs)
    {out : BV → V} {sch : Schedule} (hwf : sch.WellFormed)
    (hcons : ∀ b ∈ bs, ∀ (i : Nat) (o : BV), b.outs[i]? = some o → ∀ y, b.recomputeC (b.deps.map out) i = some y → y = out o)
    (hinputs : ∀ c ∈ cs, ∀ b ∈ bs, c ∉ b.outs) {τ₀ τ : CTape V T A} (hh : OptHistory truthy cs J τ₀ τ)
    (h₀ : Alive (Indep bs cs) out sch bs τ₀) : Alive (Indep bs cs) out sch bs τ ∨ Thinned bs cs J out τ := by
  have hP : ∀ v, Indep bs cs v → v ∉ cs := fun v hv hc => hv (.base hc)
  induction hh with
  | start => exact Or.inl h₀
  | call _ hr ih =>
    rcases ih with h | h
    · exact Or.inl (rfCall_alive hwf (stable_indep (fun _ h => h) hcons) hP h hr).1
    · obtain ⟨a1, a2⟩ := rfCall_alive hwf (stable_indep (fun b hb => h.sub.subset hb) hcons) hP ⟨Or.inr ⟨h.mode, h.core⟩, h.flags⟩ hr
      exact Or.inr (h.same hwf a1 a2 (rfCall_static h.mode hr))
  | derivative _ hr ih =>
    rcases ih with h | h
    · exact Or.inl (rfDerivative_alive hwf (stable_indep (fun _ h => h) hcons) h hr).1
    · obtain ⟨a1, a2⟩ := rfDerivative_alive hwf (stable_indep (fun b hb => h.sub.subset hb) hcons) ⟨Or.inr ⟨h.mode, h.core⟩, h.flags⟩ hr
      exact Or.inr (h.same hwf a1 a2 (rfDerivative_static h.mode hr))
  | optimize _ hm ho ih =>
    refine Or.inr (Thinned.optimize wf hinputs ?_ ho)
    exact ih.elim (fun h => h.thinned hwf hm J) id

/-- **C71, value** (partial: as for C25 the functional's recorded value must not be falsy and taping must have finished).  For every
recorded program and every well-formed schedule, after any history of evaluations, derivatives and optimisations of the tape for the
functional and its controls, evaluating the reduced functional succeeds and gives the value of the functional in the run of all the
recorded operations, provided recomputing an operation from the recorded values gives the recorded result. -/
theorem optimised_value_partial [Add A] [Zero A] [Mul V] {sch : Schedule} {h : Heap V T A} {es : List (Event V T A)}
    {τ₀ τ : CTape V T A} (hr : Recorded sch h es τ₀)
    (hfaithful : ∀ b ∈ Event.blocks es, ∀ (i : Nat) (o : BV), b.outs[i]? = some o →
      ∀ y, b.recomputeC (b.deps.map fun d => (h d).output) i = some y → y = (h o).output)
    {truthy : V → Bool} {cs : List BV} {J : BV} (hh : OptHistory truthy cs J τ₀ τ) (hmode : τ.mgr.mode ≠ .record)
    (hcs : cs.Nodup) (hinputs : ∀ c ∈ cs, ∀ b ∈ Event.blocks es, c ∉ b.outs) (htruthy : truthy (h J).output = true) (scale : V)
    {xs : List V} (hlen : xs.length = cs.length) {val : BV → V} (hrun : IsRun (Event.blocks es) cs xs (fun v => (h v).output) val) :
    ∃ τ', rfCall truthy J cs scale xs τ = .ok (val J * scale, τ') := by
  have ht : Thinned (Event.blocks es) cs J (fun v => (h v).output) τ :=
    (hh.state hr.ssa hr.wellFormed hfaithful hinputs (hr.alive _)).elim (fun h => h.thinned hr.wellFormed hmode J) id
  obtain ⟨N, hc⟩ := ht.core
  exact hc.value ht.flags hmode (stable_indep (fun b hb => ht.sub.subset hb) hfaithful) hcs (fun v hv hvc => hv (.base hvc))
    (fun c hcc b hb => hinputs c hcc b (ht.sub.subset hb)) htruthy scale hlen hrun.control (IsRun.indep hr.ssa hfaithful hrun)
    (fun b hb => hrun.block b (ht.sub.subset hb)) ht.init ht.kept

/-- **C71, time steps.**  Optimising for functionals keeps the time steps, of each the operations that contribute to a functional, and of
the variables it needs from earlier steps those that contribute to a functional, in their order; whatever was stored for the steps is gone. -/
theorem optimised_steps {τ : CTape V T A} (wf : WF τ.blocks) (fs : List BV) :
    (τ.optimizeForFunctionals fs).steps.length = τ.steps.length ∧ ∀ (k : Nat) s s', τ.steps[k]? = some s →
      (τ.optimizeForFunctionals fs).steps[k]? = some s' →
      s'.blocks.Sublist s.blocks ∧ (∀ b, b ∈ s'.blocks ↔ b ∈ s.blocks ∧ ContributesTo τ.blocks fs b) ∧
      s'.state.elems.Sublist s.state.elems ∧ (∀ v, v ∈ s'.state.elems ↔ v ∈ s.state.elems ∧ CoReach τ.blocks (· ∈ fs) v) ∧
      s'.adjDeps.elems = [] ∧ ∀ v, s'.ckpt v = none := by
  obtain ⟨p, q, e, hp, hq⟩ := optimizeForFunctionals_eq wf fs
  rw [e]
  refine ⟨by simp [keepSteps], fun k s s' hs hs' => ?_⟩
  obtain ⟨s₀, hs₀, rfl⟩ := keepSteps_get hs'
  rw [hs] at hs₀
  cases hs₀
  refine ⟨List.filter_sublist, fun b => ?_, List.filter_sublist, fun v => ?_, rfl, fun _ => rfl⟩
  · rw [← hp b]; exact List.mem_filter
  · rw [← hq v]; exact List.mem_filter

/-! ## Derivatives at the recorded values -/

/-- Evaluations at the recorded control values and derivatives, of any functionals and with any controls, and optimisations of the tape
for the functional `J` and the controls `cs`. -/
inductive OptCycles [Add A] [Zero A] [Mul V] (truthy : V → Bool) (out : BV → V) (cs : List BV) (J : BV) :
    CTape V T A → CTape V T A → Prop
  | start (τ) : OptCycles truthy out cs J τ τ
  | call {τ₀ τ τ' : CTape V T A} {J' cs' scale y} (h : OptCycles truthy out cs J τ₀ τ)
      (hr : rfCall truthy J' cs' scale (cs'.map out) τ = .ok (y, τ')) : OptCycles truthy out cs J τ₀ τ'
  | derivative {τ₀ τ τ' : CTape V T A} {J' cs' a ds} (h : OptCycles truthy out cs J τ₀ τ)
      (hr : rfDerivative J' cs' a τ = .ok (ds, τ')) : OptCycles truthy out cs J τ₀ τ'
  | optimize {τ₀ τ τ' : CTape V T A} (h : OptCycles truthy out cs J τ₀ τ) (hm : τ.mgr.mode ≠ .record)
      (ho : τ.optimizeTape J cs = some τ') : OptCycles truthy out cs J τ₀ τ'

/-- The tape in order at the recorded values, with the operations that are left, which give the same derivative. -/
structure ThinReady (out : BV → V) (sch : Schedule) (bs : Blocks V T A) (cs : List BV) (J : BV) [Add A] [Zero A] (τ : CTape V T A) :
    Prop where
  ready : Ready out sch τ.blocks τ
  sub : τ.blocks.Sublist bs
  gradient : ∀ (h : Heap V T A) a, (∀ v, (h v).marked = false) → (∀ c ∈ cs, OnTape τ.blocks c ∨ c = J) →
    (computeGradient bs J cs a h).1 = (computeGradient τ.blocks J cs a h).1

theorem keepSteps_ready {out : BV → V} {sch : Schedule} {τ : CTape V T A} (hwf : sch.WellFormed) (hrev : sch.Reverses)
    (h : Ready out sch τ.blocks τ) (hm : τ.mgr.mode ≠ .record) (p : Block V T A → Bool) (q : BV → Bool) :
    Ready out sch (keepSteps p q τ).blocks (keepSteps p q τ) := by
  have hfin : finishTaping τ = .ok τ := by unfold finishTaping; rw [if_neg hm]
  obtain ⟨⟨N, hc, hrv⟩, -⟩ := finishTaping_ready hwf hrev h.state hfin
  refine ⟨Or.inr ⟨hm, N, hc.keepSteps ⟨fun _ _ _ _ _ _ _ _ _ => Or.inl (Or.inr trivial),
    fun _ _ _ _ _ _ _ => Or.inl (Or.inr trivial), fun s' hs' v hv b hb => ?_⟩, hrv⟩, h.flags, h.marks⟩
  obtain ⟨s, hs, rfl⟩ := keepSteps_get hs'
  rw [keepSteps_blocks] at hb
  exact hc.live.init s hs v (List.mem_filter.1 hv).1 b (List.mem_filter.1 hb).1

theorem optimizeTape_steps {J : BV} {cs : List BV} {τ τ' : CTape V T A} (wf : WF τ.blocks) (h : τ.optimizeTape J cs = some τ') :
    ∃ p q p' q', τ' = keepSteps p' q' (keepSteps p q τ) ∧
      Pyadjoint.optimizeTape (τ.steps.map (·.blocks)) cs J = some (τ'.steps.map (·.blocks)) := by
  unfold CTape.optimizeTape at h
  rw [Option.map_eq_some_iff] at h
  obtain ⟨τ₁, h1, rfl⟩ := h
  obtain ⟨p, e1, hp⟩ := optimizeForControls_eq wf h1
  have wf₁ : WF τ₁.blocks := by rw [e1, keepSteps_blocks]; exact wf.filter p
  obtain ⟨p', q', e2, hp', -⟩ := optimizeForFunctionals_eq wf₁ [J]
  refine ⟨p, _, p', q', by rw [e2, e1], ?_⟩
  unfold CTape.optimizeForControls at h1
  simp only [Option.map_eq_some_iff] at h1
  obtain ⟨bs, h1, h1'⟩ := h1
  have wf' := wf
  rw [blocks_flatten] at wf'
  have hbs := optimize_for_controls_exact wf' cs h1
  have e3 : τ₁.steps.map (·.blocks) = bs := by
    rw [← h1', hbs, zipWith_map_right, List.map_map, List.map_map]
    rfl
  unfold Pyadjoint.optimizeTape
  rw [h1, Option.map_some, ← e3]
  congr 1
  rw [blocks_flatten] at wf₁
  unfold CTape.optimizeForFunctionals
  dsimp only
  rw [optimize_for_functionals_exact wf₁, zipWith_map_right, List.map_map, List.map_map]
  rfl

theorem ThinReady.same {out : BV → V} {sch : Schedule} {bs : Blocks V T A} {cs : List BV} {J : BV} [Add A] [Zero A] {τ τ' : CTape V T A}
    (h : ThinReady out sch bs cs J τ) (hr : Ready out sch τ.blocks τ') : ThinReady out sch bs cs J τ' := by
  have hb : τ'.blocks = τ.blocks := by
    rcases hr.state with h | ⟨-, N, h, -⟩
    · exact h.blocks
    · exact h.blocks
  exact ⟨by rw [hb]; exact hr, by rw [hb]; exact h.sub, by rw [hb]; exact h.gradient⟩

theorem OptCycles.ready [Add A] [Zero A] [Mul V] {out : BV → V} {sch : Schedule} (hwf : sch.WellFormed) (hrev : sch.Reverses)
    {bs : Blocks V T A} (ssa : WF bs) (hst : Stable (fun _ => True) bs out) {truthy : V → Bool} {cs : List BV} {J : BV}
    {τ τ' : CTape V T A} (hh : OptCycles truthy out cs J τ τ') (h : ThinReady out sch bs cs J τ) : ThinReady out sch bs cs J τ' := by
  induction hh with
  | start => exact h
  | call _ hr ih =>
    exact ih.same (rfCall_ready hwf hrev (fun b hb => hst b (ih.sub.subset hb)) ih.ready hr)
  | derivative _ hr ih =>
    exact ih.same (rfDerivative_ready hwf hrev (ssa.sublist ih.sub) (fun b hb => hst b (ih.sub.subset hb)) ih.ready hr).1
  | @optimize τ τ' _ hm ho ih =>
    have wf := ssa.sublist ih.sub
    obtain ⟨p, q, p', q', e, hopt⟩ := optimizeTape_steps wf ho
    have hsub : τ'.blocks.Sublist τ.blocks := by
      rw [e, keepSteps_blocks, keepSteps_blocks]
      exact List.filter_sublist.trans List.filter_sublist
    refine ⟨?_, hsub.trans ih.sub, fun h a hmk hon => ?_⟩
    · rw [e]
      exact keepSteps_ready hwf hrev (keepSteps_ready hwf hrev ih.ready hm p q) hm p' q'
    · rw [ih.gradient h a hmk fun c hc => (hon c hc).imp_left fun ⟨b, hb, hv⟩ => ⟨b, hsub.subset hb, hv⟩]
      rw [blocks_flatten] at wf
      rw [blocks_flatten τ, blocks_flatten τ']
      refine gradient_on_optimized wf cs J a hopt h h hmk hmk (fun _ => rfl) (fun _ _ _ _ => rfl) fun c hc => ?_
      rw [← blocks_flatten]
      exact (hon c hc).imp_right Or.inl

/-- **C71, derivatives** (partial: at the control values of the recording; `optimised_gradient_stale` shows that it fails at others).
For every recorded program and every well-formed schedule that reverses every step once, after any history of evaluations at the
recorded values, derivatives and optimisations of the tape for the functional and its controls: a derivative that is computed is the
one that the program recorded without checkpointing gives, provided recomputing an operation from the recorded values gives the
recorded result and every control is still used by some operation that is left. -/
theorem optimised_gradient_partial [Add A] [Zero A] [Mul V] {sch : Schedule} {h : Heap V T A}
    {es : List (Event V T A)} {τ₀ τ : CTape V T A} (hr : Recorded sch h es τ₀) (hrev : sch.Reverses)
    (hfaithful : ∀ b ∈ Event.blocks es, ∀ (i : Nat) (o : BV), b.outs[i]? = some o →
      ∀ y, b.recomputeC (b.deps.map fun d => (h d).output) i = some y → y = (h o).output)
    {truthy : V → Bool} {cs : List BV} {J : BV} (hh : OptCycles truthy (fun v => (h v).output) cs J τ₀ τ)
    (hcs : ∀ c ∈ cs, OnTape τ.blocks c ∨ c = J) {a : A} {ds : List A} {τ' : CTape V T A}
    (hd : rfDerivative J cs a τ = .ok (ds, τ')) :
    ds = (computeGradient (Event.blocks es) J cs a h).1 := by
  have hst : Stable (fun _ => True) (Event.blocks es) (fun v => (h v).output) :=
    fun b hb i o ho _ => ⟨fun _ _ => trivial, hfaithful b hb i o ho⟩
  have hal := hr.alive (fun _ => True)
  obtain ⟨gc, pk, eager, τ₁, hgc, h1, h2⟩ := hr.recorded
  have hf : Fresh (fun _ => True) (fun v => (h v).output) h :=
    ⟨fun _ => rfl, fun v _ c hc => (by rw [(hr.unused v).1] at hc; cases hc),
      fun v => (hr.unused v).2.2.2.1, fun v => (hr.unused v).2.2.2.2⟩
  have ht := (taped_enable hf hgc h1).recording es (show WF ([] ++ Event.blocks es) from hr.ssa) h2
  rw [List.nil_append] at ht
  have hb := ht.blocks
  have hready : Ready (fun v => (h v).output) sch (Event.blocks es) τ₀ :=
    ⟨Or.inl ht, hal.flags, fun v => (hr.same v).2.2.1.trans (hr.unused v).2.2.1⟩
  have h₀ : ThinReady (fun v => (h v).output) sch (Event.blocks es) cs J τ₀ :=
    ⟨by rw [hb]; exact hready, by rw [hb], fun _ _ _ _ => by rw [hb]⟩
  have ht' := hh.ready hr.wellFormed hrev hr.ssa hst h₀
  rw [ht'.gradient h a (fun v => (hr.unused v).2.2.1) hcs]
  refine (rfDerivative_ready hr.wellFormed hrev (hr.ssa.sublist ht'.sub) (fun b hb => hst b (ht'.sub.subset hb)) ht'.ready hd).2 h
    (fun v => ?_) (fun v => (hr.unused v).2.2.1) hcs
  unfold saved
  rw [(hr.unused v).1]

/-! ## Non-vacuity, and what fails -/

/-- `J(x) = x⁷`, recorded in two time steps of two operations each; a fifth operation does not contribute to `J`. -/
def exSeventh : List (Event Int Int Int) :=
  [.block (mulBlk 0 0 1), .block (mulBlk 1 0 2), .endTimestep, .block (mulBlk 2 2 3), .block (mulBlk 3 0 4), .block (mulBlk 0 4 5),
    .endTimestep]

/-- The tape recorded at `x = 2` with a schedule that keeps every step on disk. -/
def seventhTape : CTape Int Int Int := tapeOf emptyTape (record singleDisk2 (freshHeap [2, 4, 8, 64, 128, 256]) exSeventh)

/-- The optimised tape. -/
def seventhOptimised : CTape Int Int Int := (seventhTape.optimizeTape 4 [0]).getD emptyTape

theorem exSeventh_wf : WF (Event.blocks exSeventh) := by
  refine ⟨?_, ?_, ?_⟩
  · intro b hb
    simp only [exSeventh, Event.blocks, List.mem_cons, List.not_mem_nil, or_false] at hb
    rcases hb with rfl | rfl | rfl | rfl | rfl <;> decide
  · intro b hb
    simp only [exSeventh, Event.blocks, List.mem_cons, List.not_mem_nil, or_false] at hb
    rcases hb with rfl | rfl | rfl | rfl | rfl <;> decide
  · simp [exSeventh, Event.blocks, mulBlk]

theorem seventh_recorded : Recorded singleDisk2 (freshHeap [2, 4, 8, 64, 128, 256]) exSeventh seventhTape :=
  recorded_of singleDisk2_wellFormed exSeventh_wf (by decide +kernel)

theorem seventh_faithful : ∀ b ∈ Event.blocks exSeventh, ∀ (i : Nat) (o : BV), b.outs[i]? = some o →
    ∀ y, b.recomputeC (b.deps.map fun d => (freshHeap [2, 4, 8, 64, 128, 256] d).output) i = some y →
      y = (freshHeap [2, 4, 8, 64, 128, 256] o).output := by
  intro b hb i o ho y hy
  simp only [exSeventh, Event.blocks, List.mem_cons, List.not_mem_nil, or_false] at hb
  rcases hb with rfl | rfl | rfl | rfl | rfl <;>
  · cases i with
    | zero => simp [mulBlk] at ho; subst ho; cases hy; rfl
    | succ i => simp [mulBlk] at ho

/-- The optimisation succeeds; it drops the operation that does not contribute to `J`. -/
theorem seventh_optimises : seventhTape.optimizeTape 4 [0] = some seventhOptimised ∧ seventhOptimised.blocks.length = 4 := by
  constructor
  · have h : (seventhTape.optimizeTape 4 [0]).isSome = true := by decide +kernel
    unfold seventhOptimised
    obtain ⟨τ, e⟩ := Option.isSome_iff_exists.1 h
    rw [e]; rfl
  · decide +kernel

/-- `optimised_steps` applies to that tape; its state for step 1 loses a variable if only `x²` is wanted. -/
example : WF seventhTape.blocks ∧ (seventhTape.optimizeForFunctionals [1]).steps.map (·.state.elems) ≠ seventhTape.steps.map (·.state.elems) :=
  ⟨by rw [show seventhTape.blocks = Event.blocks exSeventh from (seventh_recorded.alive (fun _ => True)).state.elim (·.blocks) fun h => h.2.elim fun _ h => h.blocks]
      exact exSeventh_wf, by decide +kernel⟩

/-- The run for `x = 3`. -/
def seventhRun (v : BV) : Int := ([3, 9, 27, 729, 2187, 6561] : List Int).getD v 0

theorem seventhRun_run :
    IsRun (Event.blocks exSeventh) [0] [3] (fun v => (freshHeap [2, 4, 8, 64, 128, 256] v).output) seventhRun := by
  refine ⟨?_, ?_, ?_⟩
  · intro i c x hc hx
    cases i with
    | zero => simp at hc hx; subst hc; subst hx; rfl
    | succ i => simp at hc
  · intro v hv hb
    have h0 : v ≠ 0 := by simpa using hv
    have hout : ∀ o ∈ [1, 2, 3, 4, 5], v ≠ o := by
      rintro o ho rfl
      simp only [List.mem_cons, List.not_mem_nil, or_false] at ho
      rcases ho with rfl | rfl | rfl | rfl | rfl
      · exact hb (mulBlk 0 0 1) (by simp [exSeventh, Event.blocks]) (by simp [mulBlk])
      · exact hb (mulBlk 1 0 2) (by simp [exSeventh, Event.blocks]) (by simp [mulBlk])
      · exact hb (mulBlk 2 2 3) (by simp [exSeventh, Event.blocks]) (by simp [mulBlk])
      · exact hb (mulBlk 3 0 4) (by simp [exSeventh, Event.blocks]) (by simp [mulBlk])
      · exact hb (mulBlk 0 4 5) (by simp [exSeventh, Event.blocks]) (by simp [mulBlk])
    have h6 : 6 ≤ v := by
      have h1 := hout 1 (by simp)
      have h2 := hout 2 (by simp)
      have h3 := hout 3 (by simp)
      have h4 := hout 4 (by simp)
      have h5 := hout 5 (by simp)
      revert h0 h1 h2 h3 h4 h5
      show (v : Nat) ≠ 0 → (v : Nat) ≠ 1 → (v : Nat) ≠ 2 → (v : Nat) ≠ 3 → (v : Nat) ≠ 4 → (v : Nat) ≠ 5 → 6 ≤ (v : Nat)
      grind
    show List.getD _ v 0 = List.getD _ v 0
    rw [List.getD_eq_getElem?_getD, List.getD_eq_getElem?_getD, List.getElem?_eq_none (by exact h6), List.getElem?_eq_none (by exact h6)]
  · intro b hb i o ho
    simp only [exSeventh, Event.blocks, List.mem_cons, List.not_mem_nil, or_false] at hb
    rcases hb with rfl | rfl | rfl | rfl | rfl <;>
    · cases i with
      | zero => simp [mulBlk] at ho; subst ho; rfl
      | succ i => simp [mulBlk] at ho

/-- The optimised tape, later on. -/
def seventhLater : CTape Int Int Int := afterD (rfDerivative 4 [0] 1 (afterC (rfCall (fun x => x != 0) 4 [0] 1 [5] seventhOptimised)))

/-- `optimised_value_partial` applies after an optimisation, an evaluation at `5` and a derivative. -/
example : ∃ τ', rfCall (fun x => x != 0) 4 [0] 1 [3] seventhLater = .ok (2187, τ') := by
  obtain ⟨y, h₁⟩ := afterC_ok (r := rfCall (fun x => x != 0) 4 [0] 1 [5] seventhOptimised) (by decide +kernel)
  obtain ⟨ds, h₂⟩ := afterD_ok (r := rfDerivative 4 [0] 1 (afterC (rfCall (fun x => x != 0) 4 [0] 1 [5] seventhOptimised))) (by decide +kernel)
  exact optimised_value_partial seventh_recorded seventh_faithful
    (.derivative (.call (.optimize (.start _) (by decide +kernel) seventh_optimises.1) h₁) h₂) (by decide +kernel) (by simp)
    (by simp [exSeventh, Event.blocks, mulBlk]) rfl 1 (xs := [3]) rfl seventhRun_run

/-- `optimised_gradient_partial` applies to the optimised tape after an evaluation at the recorded value `2`. -/
example : derivatives (rfDerivative 4 [0] 1 (afterC (callAt2 4 seventhOptimised))) = some [448] := by
  obtain ⟨y, h₁⟩ := afterC_ok (r := callAt2 4 seventhOptimised) (by decide +kernel)
  obtain ⟨ds, h₂⟩ := afterD_ok (r := rfDerivative 4 [0] 1 (afterC (callAt2 4 seventhOptimised))) (by decide +kernel)
  have := optimised_gradient_partial seventh_recorded singleDisk2_reverses seventh_faithful (truthy := fun x => x != 0)
    (.call (.optimize (.start _) (by decide +kernel) seventh_optimises.1) h₁)
    (fun c hc => by
      rw [List.mem_singleton] at hc
      subst hc
      have h : (afterC (callAt2 4 seventhOptimised)).blocks.any (fun b => decide (0 ∈ b.deps)) = true := by decide +kernel
      obtain ⟨b, hb, hd⟩ := List.any_eq_true.1 h
      exact Or.inl ⟨b, hb, Or.inl (decide_eq_true_iff.1 hd)⟩) h₂
  rw [h₂, this]
  decide +kernel

/-- **C71, refutation.**  A recording and a schedule with which the derivative at a control value other than the recorded one is right.
After `optimize_tape` the value is right, and the derivative that is returned, without an error, is wrong; the next one is right again. -/
theorem optimised_gradient_stale :
    ∃ (sch : Schedule) (h : Heap Int Int Int) (es : List (Event Int Int Int)) (τ τ' : CTape Int Int Int),
      Recorded sch h es τ ∧ sch.Reverses ∧ τ.mgr.mode ≠ .record ∧ τ.optimizeTape 4 [0] = some τ' ∧
      (computeGradient (Event.blocks es) 4 [0] 1 (rfEval (Event.blocks es) [0] [3] h)).1 = [5103] ∧
      callThenDerivative 4 3 τ = some (2187, [5103]) ∧ callThenDerivative 4 3 τ' = some (2187, [3628]) ∧
      callThenDerivative 4 3 (afterD (rfDerivative 4 [0] 1 (afterC (rfCall (fun x => x != 0) 4 [0] 1 [3] τ')))) = some (2187, [5103]) :=
  ⟨singleDisk2, _, exSeventh, seventhTape, seventhOptimised, seventh_recorded, singleDisk2_reverses, by decide +kernel,
    seventh_optimises.1, by decide +kernel, by decide +kernel, by decide +kernel, by decide +kernel⟩

end CTape
end Pyadjoint
