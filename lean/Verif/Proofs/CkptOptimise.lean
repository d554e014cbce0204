import Verif.Model.CheckpointOptimise
import Verif.Props.CheckpointCycles
import Verif.Props.Optimize

/-! # Optimising a checkpointed tape: invariants -/

namespace Pyadjoint

variable {V T A : Type*}

/-- The nodes that `optimize_for_functionals` retains are those that contribute to a functional. -/
theorem retained_iff {steps : List (Blocks V T A)} (wf : WF steps.flatten) (fs : List BV) (v : BV) :
    v ∈ World.retainedNodes steps fs ↔ CoReach steps.flatten (· ∈ fs) v := by
  unfold World.retainedNodes
  rw [optFunctionals_eq wf]
  exact findNeededNodes_iff wf fs v

theorem WF.sublist {bs bs' : Blocks V T A} (wf : WF bs) (h : bs'.Sublist bs) : WF bs' :=
  ⟨fun b hb => wf.nodup b (h.subset hb), fun b hb => wf.self b (h.subset hb), wf.later.sublist h⟩

/-- Every variable is an output of one block at most. -/
theorem WF.producer {bs : Blocks V T A} (wf : WF bs) {b b' : Block V T A} (hb : b ∈ bs) (hb' : b' ∈ bs) {o : BV}
    (ho : o ∈ b.outs) (ho' : o ∈ b'.outs) : b = b' := by
  by_contra hne
  obtain ⟨i, hi, rfl⟩ := List.mem_iff_getElem.1 hb
  obtain ⟨j, hj, rfl⟩ := List.mem_iff_getElem.1 hb'
  rcases Nat.lt_trichotomy i j with h | h | h
  · exact (List.pairwise_iff_getElem.1 wf.later i j hi hj h).2 o ho ho'
  · subst h; exact hne rfl
  · exact (List.pairwise_iff_getElem.1 wf.later j i hj hi h).2 o ho' ho

namespace CTape

/-- The variable does not depend on the controls. -/
def Indep (bs : Blocks V T A) (cs : List BV) (v : BV) : Prop := ¬ Reach bs (· ∈ cs) v

theorem stable_indep {bs bs' : Blocks V T A} {cs : List BV} {out : BV → V} (hsub : ∀ b ∈ bs', b ∈ bs)
    (hcons : ∀ b ∈ bs, ∀ (i : Nat) (o : BV), b.outs[i]? = some o → ∀ y, b.recomputeC (b.deps.map out) i = some y → y = out o) :
    Stable (Indep bs cs) bs' out := by
  intro b hb i o ho hP
  exact ⟨fun d hd hr => hP (.step (hsub b hb) hd hr (List.mem_of_getElem? ho)), hcons b (hsub b hb) i o ho⟩

/-- A variable that does not depend on the controls keeps its recorded value in every run. -/
theorem IsRun.indep {bs : Blocks V T A} (wf : WF bs) {cs : List BV} {xs : List V} {out val : BV → V}
    (hcons : ∀ b ∈ bs, ∀ (i : Nat) (o : BV), b.outs[i]? = some o → ∀ y, b.recomputeC (b.deps.map out) i = some y → y = out o)
    (hrun : IsRun bs cs xs out val) : ∀ v, Indep bs cs v → val v = out v := by
  suffices h : ∀ n v, (∀ (k : Nat) (b : Block V T A), bs[k]? = some b → v ∈ b.outs → k < n) → Indep bs cs v → val v = out v from
    fun v hv => h bs.length v (fun k b hb _ => (List.getElem?_eq_some_iff.1 hb).1) hv
  intro n
  induction n with
  | zero =>
    intro v hv hP
    refine hrun.input v (fun hc => hP (.base hc)) fun b hb ho => ?_
    obtain ⟨k, hk⟩ := List.mem_iff_getElem?.1 hb
    exact absurd (hv k b hk ho) (Nat.not_lt_zero _)
  | succ n ih =>
    intro v hv hP
    by_cases hex : ∃ b, bs[n]? = some b ∧ v ∈ b.outs
    · obtain ⟨b, hb, ho⟩ := hex
      obtain ⟨hn, hbn⟩ := List.getElem?_eq_some_iff.1 hb
      have hbm := List.mem_of_getElem? hb
      obtain ⟨i, hi⟩ := List.mem_iff_getElem?.1 ho
      refine hcons b hbm i v hi _ ?_
      rw [← List.map_congr_left (f := val) (fun d hd => ?_)]
      · exact hrun.block b hbm i v hi
      · refine ih d (fun k b' hb' ho' => ?_) fun hr => hP (.step hbm hd hr ho)
        obtain ⟨hk, hbk⟩ := List.getElem?_eq_some_iff.1 hb'
        by_contra hlt
        rcases Nat.lt_or_eq_of_le (Nat.le_of_not_lt hlt) with hlt | rfl
        · exact (hbn ▸ hbk ▸ (List.pairwise_iff_getElem.1 wf.later n k hn hk hlt).1 : ∀ d ∈ b.deps, d ∉ b'.outs) d hd ho'
        · rw [hb] at hb'; cases hb'
          exact wf.self b hbm d hd ho'
    · refine ih v (fun k b hb ho => ?_) hP
      have := hv k b hb ho
      rcases Nat.lt_or_eq_of_le (Nat.le_of_lt_succ this) with h | rfl
      · exact h
      · exact absurd ⟨b, hb, ho⟩ hex

/-! ## The steps of an optimised tape -/

theorem blocks_flatten (τ : CTape V T A) : τ.blocks = (τ.steps.map (·.blocks)).flatten := by
  unfold CTape.blocks
  rw [List.flatMap_def]

/-- The time steps of which the blocks `p` and the variables `q` of the states are kept. -/
def keepSteps (p : Block V T A → Bool) (q : BV → Bool) (τ : CTape V T A) : CTape V T A :=
  { τ with steps := τ.steps.map fun s => { blocks := s.blocks.filter p, state := ⟨s.state.elems.filter q⟩ } }

theorem keepSteps_blocks (p : Block V T A → Bool) (q : BV → Bool) (τ : CTape V T A) :
    (keepSteps p q τ).blocks = τ.blocks.filter p := by
  rw [blocks_flatten, blocks_flatten]
  simp only [keepSteps, List.map_map]
  rw [List.filter_flatten, List.map_map]
  rfl

theorem keepSteps_get {p : Block V T A → Bool} {q : BV → Bool} {τ : CTape V T A} {k : Nat} {s' : CStep V T A}
    (h : (keepSteps p q τ).steps[k]? = some s') :
    ∃ s, τ.steps[k]? = some s ∧ s' = { blocks := s.blocks.filter p, state := ⟨s.state.elems.filter q⟩ } := by
  simp only [keepSteps, List.getElem?_map, Option.map_eq_some_iff] at h
  obtain ⟨s, h1, h2⟩ := h
  exact ⟨s, h1, h2.symm⟩

theorem zipWith_map_right {α β γ δ : Type*} (f : α → β → γ) (g : α → δ) (k : δ → β) (l : List α) :
    List.zipWith f l ((l.map g).map k) = l.map fun a => f a (k (g a)) := by
  induction l with
  | nil => rfl
  | cons a l ih => simp only [List.map_cons, List.zipWith_cons_cons, ih]

theorem optimizeForControls_eq {τ τ' : CTape V T A} (wf : WF τ.blocks) {cs : List BV}
    (h : τ.optimizeForControls cs = some τ') :
    ∃ p : Block V T A → Bool, τ' = keepSteps p (fun _ => true) τ ∧ ∀ b, p b = true ↔ DependsOnControl τ.blocks cs b := by
  classical
  rw [blocks_flatten] at wf
  unfold CTape.optimizeForControls at h
  simp only [Option.map_eq_some_iff] at h
  obtain ⟨bs, h1, rfl⟩ := h
  refine ⟨fun b => decide (DependsOnControl τ.blocks cs b), ?_, fun b => decide_eq_true_iff⟩
  rw [optimize_for_controls_exact wf cs h1, zipWith_map_right, ← blocks_flatten]
  unfold keepSteps
  congr 1
  refine List.map_congr_left fun s _ => ?_
  simp only [List.filter_true]

theorem optimizeForFunctionals_eq {τ : CTape V T A} (wf : WF τ.blocks) (fs : List BV) :
    ∃ (p : Block V T A → Bool) (q : BV → Bool), τ.optimizeForFunctionals fs = keepSteps p q τ ∧
      (∀ b, p b = true ↔ ContributesTo τ.blocks fs b) ∧ ∀ v, q v = true ↔ CoReach τ.blocks (· ∈ fs) v := by
  classical
  rw [blocks_flatten] at wf
  refine ⟨fun b => decide (ContributesTo τ.blocks fs b), fun v => decide (v ∈ World.retainedNodes (τ.steps.map (·.blocks)) fs), ?_,
    fun b => decide_eq_true_iff, fun v => ?_⟩
  · unfold CTape.optimizeForFunctionals
    dsimp only
    rw [optimize_for_functionals_exact wf fs, zipWith_map_right, ← blocks_flatten]
    rfl
  · rw [decide_eq_true_iff, retained_iff wf, ← blocks_flatten]

/-! ## The invariant -/

/-- A tape recorded as `bs₀`, evaluated and optimised for the functional `J` and the controls `cs` any number of times. -/
structure Thinned (bs₀ : Blocks V T A) (cs : List BV) (J : BV) (out : BV → V) (τ : CTape V T A) : Prop where
  mode : τ.mgr.mode ≠ .record
  core : ∃ N, Core (Indep bs₀ cs) out N τ.blocks τ
  flags : ∀ v, (τ.heap v).isControl = false
  sub : τ.blocks.Sublist bs₀
  init : ∀ s, τ.steps[0]? = some s → ∀ v ∈ s.state.elems, v ∈ cs ∨ Indep bs₀ cs v
  kept : (∀ b ∈ τ.blocks, J ∉ b.outs) → J ∈ cs ∨ Indep bs₀ cs J

/-- Splitting a filtered list. -/
theorem filter_split {α : Type*} {p : α → Bool} {l pre post : List α} {a : α} (h : l.filter p = pre ++ a :: post) :
    ∃ l₁ l₂, l = l₁ ++ a :: l₂ ∧ pre = l₁.filter p := by
  obtain ⟨l₁, l₂, rfl, h1, h2⟩ := List.filter_eq_append_iff.1 h
  obtain ⟨m₁, m₂, rfl, h3, h4, h5⟩ := List.filter_eq_cons_iff.1 h2
  refine ⟨l₁ ++ m₁, m₂, by simp, ?_⟩
  rw [List.filter_append, h1, List.filter_eq_nil_iff.2 h3, List.append_nil]

/-- Within one step, whatever the blocks that are left use depends on the controls through blocks that are left. -/
theorem LiveOK.reach_step {bs₀ : Blocks V T A} (wf : WF bs₀) {cs : List BV} {τ : CTape V T A} (hl : LiveOK (Indep bs₀ cs) τ)
    (hsub : τ.blocks.Sublist bs₀) {k : Nat} {s : CStep V T A} (hs : τ.steps[k]? = some s)
    (hstate : ∀ v ∈ s.state.elems, Reach bs₀ (· ∈ cs) v → Reach τ.blocks (· ∈ cs) v) :
    ∀ (pre : List (Block V T A)) b post, s.blocks = pre ++ b :: post →
      (∀ d ∈ b.deps, Reach bs₀ (· ∈ cs) d → Reach τ.blocks (· ∈ cs) d) ∧
      (∀ o ∈ b.outs, Reach bs₀ (· ∈ cs) o → Reach τ.blocks (· ∈ cs) o) := by
  suffices h : ∀ n (pre : List (Block V T A)), pre.length = n → ∀ b post, s.blocks = pre ++ b :: post →
      (∀ d ∈ b.deps, Reach bs₀ (· ∈ cs) d → Reach τ.blocks (· ∈ cs) d) ∧
      (∀ o ∈ b.outs, Reach bs₀ (· ∈ cs) o → Reach τ.blocks (· ∈ cs) o) from fun pre => h _ pre rfl
  intro n
  induction n using Nat.strong_induction_on with
  | _ n ih =>
    intro pre hn b post hb
    have hdeps : ∀ d ∈ b.deps, Reach bs₀ (· ∈ cs) d → Reach τ.blocks (· ∈ cs) d := by
      intro d hd hr
      rcases hl.dep k s hs pre b post hb d hd with (hv | hP) | ⟨b', hb', ho⟩
      · exact hstate d hv hr
      · exact absurd hr hP
      · obtain ⟨l₁, l₂, rfl⟩ := List.append_of_mem hb'
        refine (ih l₁.length ?_ l₁ rfl b' (l₂ ++ b :: post) (by rw [hb]; simp)).2 d ho hr
        rw [← hn, List.length_append, List.length_cons]
        omega
    refine ⟨hdeps, fun o ho hr => ?_⟩
    have hbτ : b ∈ τ.blocks := mem_blocks_of_step hs (by rw [hb]; simp)
    cases hr with
    | base h => exact .base h
    | step hb₂ hd₂ hr₂ ho₂ =>
      cases wf.producer (hsub.subset hbτ) hb₂ ho ho₂
      exact .step hbτ hd₂ (hdeps _ hd₂ hr₂) ho

/-- What is left of an optimised tape depends on the controls through what is left. -/
theorem Thinned.reach {bs₀ : Blocks V T A} (wf : WF bs₀) {cs : List BV} {J : BV} {out : BV → V} {τ : CTape V T A}
    (h : Thinned bs₀ cs J out τ) {b : Block V T A} (hb : b ∈ τ.blocks) {d : BV} (hd : d ∈ b.deps)
    (hr : Reach bs₀ (· ∈ cs) d) : Reach τ.blocks (· ∈ cs) d := by
  obtain ⟨N, hc⟩ := h.core
  have key : ∀ (k : Nat) s, τ.steps[k]? = some s → ∀ v ∈ s.state.elems, Reach bs₀ (· ∈ cs) v → Reach τ.blocks (· ∈ cs) v := by
    intro k
    induction k with
    | zero =>
      intro s hs v hv hr
      exact .base ((h.init s hs v hv).resolve_right fun hP => hP hr)
    | succ k ih =>
      intro s' hs' v hv hr
      have hlt : k < τ.steps.length := by
        have := (List.getElem?_eq_some_iff.1 hs').1
        omega
      have hs : τ.steps[k]? = some τ.steps[k] := List.getElem?_eq_getElem hlt
      rcases hc.live.carry k _ s' hs hs' v hv with (hv' | hP) | ho
      · exact ih _ hs v hv' hr
      · exact absurd hr hP
      · obtain ⟨b', hb', ho'⟩ := CStep.mem_outs.1 ho
        obtain ⟨l₁, l₂, e⟩ := List.append_of_mem hb'
        exact (hc.live.reach_step wf h.sub hs (ih _ hs) l₁ b' l₂ e).2 v ho' hr
  obtain ⟨k, s, hs, hbs⟩ := mem_blocks.1 hb
  obtain ⟨l₁, l₂, e⟩ := List.append_of_mem hbs
  exact (hc.live.reach_step wf h.sub hs (key k s hs) l₁ b l₂ e).1 d hd hr

/-- Dropping blocks and variables of states. -/
theorem Core.keepSteps {P : BV → Prop} {out : BV → V} {N : Nat} {τ : CTape V T A} (hc : Core P out N τ.blocks τ)
    {p : Block V T A → Bool} {q : BV → Bool} (hl : LiveOK P (keepSteps p q τ)) :
    Core P out N (CTape.keepSteps p q τ).blocks (CTape.keepSteps p q τ) := by
  refine ⟨hc.pos, hl, hc.total, ?_, hc.fwd, ⟨hc.clean.output, hc.clean.heap, ?_⟩, rfl⟩
  · show (List.map _ τ.steps).length = N
    rw [List.length_map]
    exact hc.length
  · intro s hs v hv c hcc
    obtain ⟨s₀, -, rfl⟩ := List.mem_map.1 hs
    cases hcc

theorem Thinned.forControls {bs₀ : Blocks V T A} (wf : WF bs₀) {cs : List BV} (hinputs : ∀ c ∈ cs, ∀ b ∈ bs₀, c ∉ b.outs) {J : BV}
    {out : BV → V} {τ τ' : CTape V T A} (h : Thinned bs₀ cs J out τ) (ho : τ.optimizeForControls cs = some τ') :
    Thinned bs₀ cs J out τ' := by
  obtain ⟨p, rfl, hp⟩ := optimizeForControls_eq (wf.sublist h.sub) ho
  obtain ⟨N, hc⟩ := h.core
  have hsub : (keepSteps p (fun _ => true) τ).blocks.Sublist τ.blocks := by
    rw [keepSteps_blocks]; exact List.filter_sublist
  have hdrop : ∀ b ∈ τ.blocks, p b ≠ true → ∀ o ∈ b.outs, Indep bs₀ cs o := by
    intro b hb hpb o ho hr
    cases hr with
    | base hoc => exact hinputs o hoc b (h.sub.subset hb) ho
    | step hb₂ hd₂ hr₂ ho₂ =>
      cases wf.producer (h.sub.subset hb) hb₂ ho ho₂
      exact hpb ((hp b).2 ⟨_, hd₂, h.reach wf hb hd₂ hr₂⟩)
  refine ⟨h.mode, ⟨N, hc.keepSteps ⟨?_, ?_, ?_⟩⟩, h.flags, hsub.trans h.sub, ?_, ?_⟩
  · intro k s' hs' pre b post hb d hd
    obtain ⟨s, hs, rfl⟩ := keepSteps_get hs'
    obtain ⟨l₁, l₂, e, rfl⟩ := filter_split hb
    rcases hc.live.dep k s hs l₁ b l₂ e d hd with (hv | hP) | ⟨b', hb', ho⟩
    · exact Or.inl (Or.inl (List.mem_filter.2 ⟨hv, rfl⟩))
    · exact Or.inl (Or.inr hP)
    · by_cases hpb : p b' = true
      · exact Or.inr ⟨b', List.mem_filter.2 ⟨hb', hpb⟩, ho⟩
      · exact Or.inl (Or.inr (hdrop b' (mem_blocks_of_step hs (by rw [e]; exact List.mem_append_left _ hb')) hpb d ho))
  · intro k s₁ s₂ hs₁ hs₂ v hv
    obtain ⟨s, hs, rfl⟩ := keepSteps_get hs₁
    obtain ⟨s', hs', rfl⟩ := keepSteps_get hs₂
    rcases hc.live.carry k s s' hs hs' v (List.mem_filter.1 hv).1 with (hv' | hP) | ho
    · exact Or.inl (Or.inl (List.mem_filter.2 ⟨hv', rfl⟩))
    · exact Or.inl (Or.inr hP)
    · obtain ⟨b', hb', ho'⟩ := CStep.mem_outs.1 ho
      by_cases hpb : p b' = true
      · exact Or.inr (CStep.mem_outs.2 ⟨b', List.mem_filter.2 ⟨hb', hpb⟩, ho'⟩)
      · exact Or.inl (Or.inr (hdrop b' (mem_blocks_of_step hs hb') hpb v ho'))
  · intro s' hs' v hv b hb
    obtain ⟨s, hs, rfl⟩ := keepSteps_get hs'
    exact hc.live.init s hs v (List.mem_filter.1 hv).1 b (hsub.subset hb)
  · intro s' hs' v hv
    obtain ⟨s, hs, rfl⟩ := keepSteps_get hs'
    exact h.init s hs v (List.mem_filter.1 hv).1
  · intro hJ
    by_cases hex : ∃ b ∈ τ.blocks, J ∈ b.outs
    · obtain ⟨b, hb, hJb⟩ := hex
      refine Or.inr (hdrop b hb (fun hpb => ?_) J hJb)
      exact hJ b (by rw [keepSteps_blocks]; exact List.mem_filter.2 ⟨hb, hpb⟩) hJb
    · exact h.kept fun b hb hJb => hex ⟨b, hb, hJb⟩

theorem Thinned.forFunctional {bs₀ : Blocks V T A} (wf : WF bs₀) {cs : List BV} {J : BV} {out : BV → V} {τ : CTape V T A}
    (h : Thinned bs₀ cs J out τ) : Thinned bs₀ cs J out (τ.optimizeForFunctionals [J]) := by
  obtain ⟨p, q, e, hp, hq⟩ := optimizeForFunctionals_eq (wf.sublist h.sub) [J]
  rw [e]
  obtain ⟨N, hc⟩ := h.core
  have hsub : (keepSteps p q τ).blocks.Sublist τ.blocks := by
    rw [keepSteps_blocks]; exact List.filter_sublist
  refine ⟨h.mode, ⟨N, hc.keepSteps ⟨?_, ?_, ?_⟩⟩, h.flags, hsub.trans h.sub, ?_, ?_⟩
  · intro k s' hs' pre b post hb d hd
    obtain ⟨s, hs, rfl⟩ := keepSteps_get hs'
    have hpb : p b = true := (List.mem_filter.1 (show b ∈ s.blocks.filter p by rw [show s.blocks.filter p = _ from hb]; simp)).2
    obtain ⟨l₁, l₂, e, rfl⟩ := filter_split hb
    have hco : CoReach τ.blocks (· ∈ [J]) d := by
      obtain ⟨o, ho, hro⟩ := (hp b).1 hpb
      exact .step (mem_blocks_of_step hs (by rw [e]; simp)) ho hro hd
    rcases hc.live.dep k s hs l₁ b l₂ e d hd with (hv | hP) | ⟨b', hb', ho⟩
    · exact Or.inl (Or.inl (List.mem_filter.2 ⟨hv, (hq d).2 hco⟩))
    · exact Or.inl (Or.inr hP)
    · exact Or.inr ⟨b', List.mem_filter.2 ⟨hb', (hp b').2 ⟨d, ho, hco⟩⟩, ho⟩
  · intro k s₁ s₂ hs₁ hs₂ v hv
    obtain ⟨s, hs, rfl⟩ := keepSteps_get hs₁
    obtain ⟨s', hs', rfl⟩ := keepSteps_get hs₂
    obtain ⟨hv₁, hqv⟩ := List.mem_filter.1 hv
    rcases hc.live.carry k s s' hs hs' v hv₁ with (hv' | hP) | ho
    · exact Or.inl (Or.inl (List.mem_filter.2 ⟨hv', hqv⟩))
    · exact Or.inl (Or.inr hP)
    · obtain ⟨b', hb', ho'⟩ := CStep.mem_outs.1 ho
      exact Or.inr (CStep.mem_outs.2 ⟨b', List.mem_filter.2 ⟨hb', (hp b').2 ⟨v, ho', (hq v).1 hqv⟩⟩, ho'⟩)
  · intro s' hs' v hv b hb
    obtain ⟨s, hs, rfl⟩ := keepSteps_get hs'
    exact hc.live.init s hs v (List.mem_filter.1 hv).1 b (hsub.subset hb)
  · intro s' hs' v hv
    obtain ⟨s, hs, rfl⟩ := keepSteps_get hs'
    exact h.init s hs v (List.mem_filter.1 hv).1
  · intro hJ
    refine h.kept fun b hb hJb => ?_
    exact hJ b (by rw [keepSteps_blocks]; exact List.mem_filter.2 ⟨hb, (hp b).2 ⟨J, hJb, .base (by simp)⟩⟩) hJb

theorem Thinned.optimize {bs₀ : Blocks V T A} (wf : WF bs₀) {cs : List BV} (hinputs : ∀ c ∈ cs, ∀ b ∈ bs₀, c ∉ b.outs) {J : BV}
    {out : BV → V} {τ τ' : CTape V T A} (h : Thinned bs₀ cs J out τ) (ho : τ.optimizeTape J cs = some τ') :
    Thinned bs₀ cs J out τ' := by
  unfold CTape.optimizeTape at ho
  rw [Option.map_eq_some_iff] at ho
  obtain ⟨τ₁, h1, rfl⟩ := ho
  exact (h.forControls wf hinputs h1).forFunctional wf

/-! ## Evaluations and derivatives -/

theorem rfCall_static [Add A] [Mul V] {truthy : V → Bool} {J : BV} {cs : List BV} {scale : V} {xs : List V} {τ τ' : CTape V T A}
    {y : V} (hm : τ.mgr.mode ≠ .record) (hr : rfCall truthy J cs scale xs τ = .ok (y, τ')) :
    τ'.steps.map static = τ.steps.map static := by
  unfold rfCall at hr
  dsimp only at hr
  split at hr
  · cases hr
  · rename_i τ₂ h₂
    simp only [Except.ok.injEq, Prod.mk.injEq] at hr
    obtain ⟨-, rfl⟩ := hr
    unfold recomputeTape finishTaping at h₂
    rw [if_neg (show (τ.onHeap _).mgr.mode ≠ .record from hm)] at h₂
    exact (forwardSweep_clean (fun _ => True) (fun v => (τ.heap v).output) h₂).1.steps

theorem rfDerivative_static [Add A] [Zero A] {J : BV} {cs : List BV} {a : A} {τ τ' : CTape V T A} {ds : List A}
    (hm : τ.mgr.mode ≠ .record) (hr : rfDerivative J cs a τ = .ok (ds, τ')) :
    τ'.steps.map static = τ.steps.map static := by
  unfold rfDerivative at hr
  split at hr
  · cases hr
  · rename_i τ₃ h₃
    simp only [Except.ok.injEq, Prod.mk.injEq] at hr
    obtain ⟨-, rfl⟩ := hr
    unfold evaluateAdjTape finishTaping at h₃
    rw [if_neg (show (τ.onHeap _).mgr.mode ≠ .record from hm)] at h₃
    dsimp only at h₃
    split at h₃
    · cases h₃
    · split at h₃
      · cases h₃
      · rename_i τ₂ h₂
        cases h₃
        exact (reverseSweep_clean (fun _ => True) (fun v => (τ.heap v).output) h₂).1.steps

theorem static_state {τ τ' : CTape V T A} (h : τ'.steps.map static = τ.steps.map static) {k : Nat} {s' : CStep V T A}
    (hs : τ'.steps[k]? = some s') : ∃ s, τ.steps[k]? = some s ∧ s.state = s'.state := by
  have := congrArg (·[k]?) h
  simp only [List.getElem?_map, hs, Option.map_some] at this
  obtain ⟨s, h1, h2⟩ := Option.map_eq_some_iff.1 this.symm
  exact ⟨s, h1, congrArg Prod.snd h2⟩

/-- The invariant after an operation that keeps the program and the states. -/
theorem Thinned.same {bs₀ : Blocks V T A} {cs : List BV} {J : BV} {out : BV → V} {sch : Schedule} {τ τ' : CTape V T A}
    (hwf : sch.WellFormed) (h : Thinned bs₀ cs J out τ) (ha : Alive (Indep bs₀ cs) out sch τ.blocks τ') (hm : τ'.mgr.mode ≠ .record)
    (hst : τ'.steps.map static = τ.steps.map static) : Thinned bs₀ cs J out τ' := by
  obtain ⟨N, hc⟩ : ∃ N, Core (Indep bs₀ cs) out N τ.blocks τ' := by
    rcases ha.state with ht | ⟨-, hc⟩
    · exact ⟨_, (ht.core (Or.inl ⟨ht.track.mode.resolve_left hm, rfl⟩) hwf).1⟩
    · exact hc
  have hb := hc.blocks
  refine ⟨hm, ⟨N, by rw [hb]; exact hc⟩, ha.flags, by rw [hb]; exact h.sub, fun s' hs' v hv => ?_, by rw [hb]; exact h.kept⟩
  obtain ⟨s, hs, e⟩ := static_state hst hs'
  exact h.init s hs v (by rw [e]; exact hv)

end CTape
end Pyadjoint
