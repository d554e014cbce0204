import Verif.Props.CheckpointGradient
import Verif.Props.CheckpointCrash

/-!
# C26: the gradient under checkpointing, in cycles

As long as every evaluation uses the control values of the recording, the derivative is that of the tape without
checkpointing after any number of evaluations and derivatives of any functionals with any controls
(`cycles_gradient_partial`).
-/

namespace Pyadjoint
namespace CTape

variable {V T A : Type*}

/-- All stored values are the recorded ones. -/
abbrev CleanAll (out : BV → V) (τ : CTape V T A) : Prop := Clean (fun _ => True) out τ

theorem Taped.onHeap_clean {out : BV → V} {sch : Schedule} {bs : Blocks V T A} {τ : CTape V T A}
    {f : Heap V T A → Heap V T A} (h : Taped (fun _ => True) out sch bs τ)
    (hf : HeapOK (fun _ => False) f τ.heap) (hc : CleanAll out (τ.onHeap f)) :
    Taped (fun _ => True) out sch bs (τ.onHeap f) :=
  ⟨h.inv.onHeap hf, hc, h.track.onHeap, h.noEnd, h.maxN, h.afterFinal, h.gcFreq, h.blocks, h.unbounded⟩

theorem Core.onHeap_clean {out : BV → V} {N : Nat} {bs : Blocks V T A} {τ : CTape V T A}
    {f : Heap V T A → Heap V T A} (h : Core (fun _ => True) out N bs τ) (hc : CleanAll out (τ.onHeap f)) :
    Core (fun _ => True) out N bs (τ.onHeap f) :=
  ⟨h.pos, ⟨h.live.dep, h.live.carry, h.live.init⟩, h.total, h.length, h.fwd, hc, h.blocks⟩

/-- The reverse actions still to come, or the recorded ones, reverse the `N` steps last to first. -/
def RevOK (N : Nat) (τ : CTape V T A) : Prop :=
  (τ.mgr.rev = [] ∧ reversedSteps (untilEndReverse τ.mgr.acts) = countdown N ∧ τ.mgr.current ≠ .endReverse) ∨
  (τ.mgr.rev ≠ [] ∧ reversedSteps τ.mgr.rev = countdown N)

/-- The tape at any time after recording, as long as every value is the recorded one. -/
structure Ready (out : BV → V) (sch : Schedule) (bs : Blocks V T A) (τ : CTape V T A) : Prop where
  state : Taped (fun _ => True) out sch bs τ ∨
    (τ.mgr.mode ≠ .record ∧ ∃ N, Core (fun _ => True) out N bs τ ∧ RevOK N τ)
  flags : ∀ v, (τ.heap v).isControl = false
  marks : ∀ v, (τ.heap v).marked = false

/-- At the end of recording the whole schedule is the forward actions taken and those to come. -/
theorem finishTaping_full {P : BV → Prop} {out : BV → V} {sch : Schedule} (hwf : sch.WellFormed) {bs : Blocks V T A}
    {τ τ₁ : CTape V T A} (ht : Taped P out sch bs τ) {N : Nat} (c1 : Core P out N bs τ₁) (h₁ : finishTaping τ = .ok τ₁) :
    (∃ pre, (∀ a ∈ pre, a ∈ sch.acts ∧ ∃ wi wa st, a = .forward 0 none wi wa st) ∧
      τ₁.mgr.fwd ++ τ₁.mgr.acts = pre ++ if sch.maxN = 0 then sch.afterFinal N else sch.acts) ∧
    (sch.maxN = 0 ∨ N = sch.maxN) ∧ τ₁.mgr.rev = [] ∧ τ₁.mgr.current ≠ .endReverse := by
  have hN : N = τ₁.steps.length := c1.length.symm
  unfold finishTaping at h₁
  split at h₁
  · obtain ⟨f1, f2, f3, f4, f5, f6, -, f7⟩ := endTaping_ok ht.track (by rw [ht.maxN]) h₁
    have hcur : τ₁.mgr.current ≠ .endReverse := by rw [f7]; exact Action.noConfusion
    by_cases hm : sch.maxN = 0
    · have hm' : τ.mgr.maxN = 0 := by rw [ht.maxN]; exact hm
      obtain ⟨g1, g2⟩ := f6 hm'
      refine ⟨?_, Or.inl hm, f4, hcur⟩
      rcases hwf with ⟨hw, -⟩ | ⟨-, wi, wa, st, rest, hw, -⟩
      · exact absurd hm hw
      · refine ⟨[.forward 0 none wi wa st], fun a ha => ?_, ?_⟩
        · rw [List.mem_singleton.1 ha]
          exact ⟨by rw [hw]; simp, _, _, _, rfl⟩
        · rw [g2, ht.unbounded hm wi wa st rest hw, ht.afterFinal, ← g1, ← hN, if_pos hm]
    · have hm' : τ.mgr.maxN ≠ 0 := by rw [ht.maxN]; exact hm
      refine ⟨⟨[], by simp, ?_⟩, Or.inr (by rw [hN, (f5 hm').1, ht.maxN]), f4, hcur⟩
      rw [if_neg hm, List.nil_append]
      exact (f5 hm').2
  · rename_i hmode
    cases h₁
    have hev := ht.track.mode.resolve_left hmode
    have hcur := ht.track.finished.1 hev
    have hm : sch.maxN ≠ 0 := by
      intro hm
      have := ht.track.eq hev
      rw [ht.track.total, if_pos hm] at this
      cases this
    have hN' : N = sch.maxN := by
      have := ht.track.eq hev
      rw [ht.track.total, if_neg hm] at this
      rw [hN]
      simpa using this.symm
    refine ⟨⟨[], by simp, ?_⟩, Or.inr hN', ht.track.rev, by rw [hcur]; exact Action.noConfusion⟩
    rw [if_neg hm, List.nil_append]
    exact ht.track.sched

theorem untilEndReverse_forwards (pre : List Action) {l : List Action} (h : ∀ a ∈ pre, ∃ wi wa st, a = Action.forward 0 none wi wa st) :
    reversedSteps (untilEndReverse (pre ++ l)) = reversedSteps (untilEndReverse l) := by
  induction pre with
  | nil => rfl
  | cons a pre ih =>
    obtain ⟨wi, wa, st, rfl⟩ := h a (by simp)
    exact ih fun a ha => h a (by simp [ha])

theorem finishTaping_ready {P : BV → Prop} {out : BV → V} {sch : Schedule} (hwf : sch.WellFormed) (hrev : sch.Reverses)
    {bs : Blocks V T A} {τ τ₁ : CTape V T A}
    (h : Taped P out sch bs τ ∨
      (τ.mgr.mode ≠ .record ∧ ∃ N, Core P out N bs τ ∧ RevOK N τ))
    (h₁ : finishTaping τ = .ok τ₁) :
    (∃ N, Core P out N bs τ₁ ∧ RevOK N τ₁) ∧ τ₁.mgr.mode ≠ .record ∧
    ∀ v, ∃ c, τ₁.heap v = { τ.heap v with ckpt := c } := by
  obtain ⟨⟨N, c1⟩, c2, c4, c3⟩ := finishTaping_core hwf
    (h.imp_right fun h => ⟨h.1, h.2.imp fun _ h => h.1⟩) h₁
  refine ⟨?_, c2, c3⟩
  rcases h with ht | ⟨hm, N', h1, h2⟩
  · refine ⟨N, c1, Or.inl ?_⟩
    obtain ⟨⟨pre, e1, e2⟩, e3, e4, e5⟩ := finishTaping_full hwf ht c1 h₁
    refine ⟨e4, ?_, e5⟩
    rw [← exact_untilEndReverse c1.fwd, e2, untilEndReverse_forwards pre fun a ha => (e1 a ha).2]
    exact hrev N c1.pos e3
  · rw [c4 hm]
    exact ⟨N', h1, h2⟩

/-! ### Evaluation at the recorded control values -/

theorem process_acts [Add A] {m : Bool} {keepJ : List BV} {a : Action} {τ τ' : CTape V T A}
    (h : process m keepJ τ a = .ok τ') : τ'.mgr.acts = τ.mgr.acts := by
  cases a with
  | forward n0 n1 wi wa st =>
    refine forwardSteps_ind (R := fun τ τ' => τ'.mgr.acts = τ.mgr.acts) (fun _ => rfl)
      (fun _ _ _ h h' => h'.trans h) (fun k τ τ' h => ?_) h
    obtain ⟨s, -, -, ⟨b, e⟩, -⟩ := forwardStep_ok h
    rw [e]
  | reverse n1 n0 clear =>
    refine foldlM_ind (R := fun τ τ' => τ'.mgr.acts = τ.mgr.acts) (fun _ => rfl)
      (fun _ _ _ h h' => h'.trans h) _ (fun τ τ' k _ h => ?_) h
    obtain ⟨s, s', -, -, -, -, -, -, -, -, e, -⟩ := reverseStep_ok h
    rw [e]
  | copy n src =>
    simp only [process] at h
    split at h
    · cases h
    · cases h; rfl
  | move n src =>
    simp only [process] at h
    split at h
    · cases h
    · cases h; rfl
  | endForward => cases h; rfl
  | endReverse => cases h; rfl

theorem Exact.no_endReverse {n N : Nat} {fwd : List Action} (h : Exact n N fwd) :
    ∀ a ∈ fwd, a ≠ Action.endReverse := by
  induction h with
  | done => simp
  | step _ _ _ _ _ _ _ _ _ _ ih => simpa using ih
  | last _ _ _ _ _ _ _ _ ih => simpa using ih

theorem forwardSweep_revOK [Add A] {keepJ : List BV} {N n : Nat} {τ τ' : CTape V T A}
    (hf : Exact n N τ.mgr.fwd) (h : forwardSweep keepJ τ = .ok τ') (hr : RevOK N τ) : RevOK N τ' := by
  have key : τ'.mgr.acts = τ.mgr.acts ∧ (τ.mgr.current ≠ .endReverse → τ'.mgr.current ≠ .endReverse) := by
    unfold forwardSweep at h
    split at h
    · split at h
      · cases h
      · rename_i s _
        exact foldlM_ind (R := fun τ τ' : CTape V T A => τ'.mgr.acts = τ.mgr.acts ∧
            (τ.mgr.current ≠ .endReverse → τ'.mgr.current ≠ .endReverse)) (fun _ => ⟨rfl, id⟩)
          (fun _ _ _ h h' => ⟨h'.1.trans h.1, h'.2 ∘ h.2⟩) _
          (fun τ τ' a ha (h : perform false keepJ τ a = .ok τ') => by
            unfold perform at h
            have ha' := process_acts h
            refine ⟨ha', fun _ => ?_⟩
            rw [process_current h]
            exact hf.no_endReverse a ha)
          (τ := { τ with heap := s.restore τ.heap }) h
    · cases h
  have hrv := forwardSweep_rev h
  unfold RevOK
  rw [hrv, key.1]
  exact hr.imp (fun h => ⟨h.1, h.2.1, key.2 h.2.2⟩) id

theorem updateControls_recorded {out : BV → V} (cs : List BV) {h : Heap V T A}
    (hc : ∀ v c, (h v).ckpt = some c → c = out v) :
    ∀ v c, (updateControls cs (cs.map out) h v).ckpt = some c → c = out v := by
  unfold updateControls
  induction cs generalizing h with
  | nil => exact hc
  | cons c₀ cs ih =>
    rw [List.map_cons, List.zip_cons_cons, List.foldl_cons]
    refine ih fun v c hv => ?_
    dsimp only at hv
    unfold setCkpt at hv
    split at hv
    · exact hc v c hv
    · by_cases hvc : v = c₀
      · subst hvc
        rw [Function.update_self] at hv
        cases hv
        rfl
      · rw [Function.update_of_ne hvc] at hv
        exact hc v c hv

/-- An evaluation at the recorded control values keeps the tape in order. -/
theorem rfCall_ready [Add A] [Mul V] {out : BV → V} {sch : Schedule} (hwf : sch.WellFormed)
    (hrev : sch.Reverses) {bs : Blocks V T A} (hst : Stable (fun _ => True) bs out) {truthy : V → Bool} {J : BV}
    {cs : List BV} {scale : V} {τ τ' : CTape V T A} {y : V}
    (h : Ready out sch bs τ) (hr : rfCall truthy J cs scale (cs.map out) τ = .ok (y, τ')) :
    Ready out sch bs τ' := by
  unfold rfCall at hr
  dsimp only at hr
  split at hr
  · cases hr
  · rename_i τ₂ h₂
    simp only [Except.ok.injEq, Prod.mk.injEq] at hr
    obtain ⟨-, rfl⟩ := hr
    unfold recomputeTape at h₂
    split at h₂
    · cases h₂
    · rename_i τ₁ h₁
      have hclean : CleanAll out τ := by
        rcases h.state with h | ⟨-, N, h, -⟩
        · exact h.clean
        · exact h.clean
      have hok := heapOK_call (P := fun _ => False) (cs := cs) (fun _ h => h.elim) (cs.map out) τ.heap
      have hcl : CleanAll out
          (τ.onHeap fun h => markControls cs true (updateControls cs (cs.map out) h)) := by
        refine ⟨fun v => (hok.output v).trans (hclean.output v), fun v _ c hc => ?_, hclean.stored⟩
        refine updateControls_recorded cs (fun v c => hclean.heap v trivial c) v c ?_
        rw [← hc]
        show _ = (markControls cs true _ v).ckpt
        rw [markControls_apply]
        split <;> rfl
      obtain ⟨⟨N, c1, cr⟩, c2, c3⟩ := finishTaping_ready hwf hrev
        (h.state.imp (fun h => h.onHeap_clean hok hcl)
          (fun ⟨hm, N, hc, hv⟩ => ⟨hm, N, hc.onHeap_clean hcl, hv⟩)) h₁
      have c1' : Core (fun _ => True) out N bs { τ₁ with mgr := { τ₁.mgr with mode := .recompute } } :=
        ⟨c1.pos, ⟨c1.live.dep, c1.live.carry, c1.live.init⟩, c1.total, c1.length, c1.fwd,
          ⟨c1.clean.output, c1.clean.heap, c1.clean.stored⟩, c1.blocks⟩
      have hs := forwardSweep_clean (fun _ => True) out h₂
      have hm : τ₂.mgr.mode ≠ .record := forwardSweep_mode h₂ Mode.noConfusion
      have hrv : RevOK N τ₂ :=
        forwardSweep_revOK (τ := { τ₁ with mgr := { τ₁.mgr with mode := .recompute } }) c1.fwd h₂ cr
      refine ⟨Or.inr ⟨hm, N, (c1'.evolve hst hs).onHeap (heapOK_mark _ cs false _), hrv⟩, fun v => ?_,
        fun v => ?_⟩
      · show (markControls cs false τ₂.heap v).isControl = false
        rw [markControls_apply]
        split
        · rfl
        · rename_i hv
          rw [hs.1.control]
          obtain ⟨c, e⟩ := c3 v
          show (τ₁.heap v).isControl = false
          rw [e]
          show (markControls cs true (updateControls cs (cs.map out) τ.heap) v).isControl = false
          rw [markControls_apply, if_neg hv, updateControls_isControl]
          exact h.flags v
      · have e1 : (markControls cs false τ₂.heap v).marked = (τ₂.heap v).marked := by
          rw [markControls_apply]; split <;> rfl
        show (markControls cs false τ₂.heap v).marked = false
        rw [e1, hs.1.marked]
        obtain ⟨c, e⟩ := c3 v
        show (τ₁.heap v).marked = false
        rw [e]
        show (markControls cs true (updateControls cs (cs.map out) τ.heap) v).marked = false
        obtain ⟨c, e⟩ := updateControls_frame cs (cs.map out) τ.heap v
        rw [markControls_apply]
        split <;> (rw [e]; exact h.marks v)

/-! ### Derivatives -/

theorem processes_inv [Add A] {m : Bool} {out : BV → V} {g : Heap V T A} (hg : ∀ v, saved g v = out v)
    {keepJ : List BV} (l : List Action) {n : Nat} {τ τ' : CTape V T A}
    (hl : reversedSteps l = countdown n) (hinv : RInv m out g n τ)
    (h : l.foldlM (process m keepJ) τ = .ok τ') : RInv m out g 0 τ' := by
  induction l generalizing n τ with
  | nil =>
    cases h
    cases n with
    | zero => exact hinv
    | succ n => rw [countdown_succ] at hl; cases hl
  | cons a l ih =>
    rw [List.foldlM_cons] at h
    cases h₁ : process m keepJ τ a with
    | error e => rw [h₁] at h; cases h
    | ok τ₁ =>
      rw [h₁] at h
      obtain ⟨n', g1, g2⟩ := process_inv hg hl hinv h₁
      exact ih g1 g2 h

/-- A derivative keeps the tape in order, and is the one without checkpointing. -/
theorem rfDerivative_ready [Add A] [Zero A] {out : BV → V} {sch : Schedule} (hwf : sch.WellFormed)
    (hrev : sch.Reverses) {bs : Blocks V T A} (ssa : WF bs) (hst : Stable (fun _ => True) bs out) {J : BV}
    {cs : List BV} {a : A} {τ τ' : CTape V T A} {ds : List A} (h : Ready out sch bs τ)
    (hr : rfDerivative J cs a τ = .ok (ds, τ')) :
    Ready out sch bs τ' ∧ ∀ h₀ : Heap V T A, (∀ v, saved h₀ v = out v) → (∀ v, (h₀ v).marked = false) →
      (∀ c ∈ cs, OnTape bs c ∨ c = J) → ds = (computeGradient bs J cs a h₀).1 := by
  classical
  have hbl : τ.blocks = bs := by
    rcases h.state with h | ⟨-, N, h, -⟩
    · exact h.blocks
    · exact h.blocks
  unfold rfDerivative at hr
  rw [hbl] at hr
  split at hr
  · cases hr
  · rename_i τ₃ h₃
    simp only [Except.ok.injEq, Prod.mk.injEq] at hr
    obtain ⟨rfl, rfl⟩ := hr
    unfold evaluateAdjTape at h₃
    split at h₃
    · cases h₃
    · rename_i τ₁ h₁
      split at h₃
      · cases h₃
      · split at h₃
        · cases h₃
        · rename_i τ₂ h₂
          cases h₃
          have hok := heapOK_seed (fun _ => True) J cs a bs τ.heap
          obtain ⟨⟨N, c1, cr⟩, c2, c3⟩ := finishTaping_ready hwf hrev
            (h.state.imp (fun h => h.onHeap hok) (fun ⟨hm, N, hc, hv⟩ => ⟨hm, N, hc.onHeap hok, hv⟩)) h₁
          have hs := reverseSweep_clean (fun _ => True) out h₂
          have c4 := c1.evolve hst hs
          have c4' : Core (fun _ => True) out N bs { τ₂ with mgr := { τ₂.mgr with mode := .evaluateAdjoint } } :=
            ⟨c4.pos, ⟨c4.live.dep, c4.live.carry, c4.live.init⟩, c4.total, c4.length, c4.fwd,
              ⟨c4.clean.output, c4.clean.heap, c4.clean.stored⟩, c4.blocks⟩
          have hτ₁ : ∀ v, ∃ c, τ₁.heap v = { seedAdjoint J cs a bs τ.heap v with ckpt := c } := c3
          have hrv : RevOK N τ₂ := by
            right
            have hne : ∀ l, reversedSteps l = countdown N → l ≠ [] := by
              rintro l hl rfl
              have := congrArg List.length hl
              simp [reversedSteps, countdown] at this
              have := c1.pos
              omega
            unfold reverseSweep at h₂
            rcases cr with ⟨r1, r2, r3⟩ | ⟨r1, r2⟩
            · rw [if_neg (by simp [r1])] at h₂
              obtain ⟨e, -⟩ := firstReverse_rev r3 h₂
              rw [e, r1, List.nil_append]
              exact ⟨hne _ r2, r2⟩
            · rw [if_pos r1] at h₂
              rw [processes_rev h₂]
              exact ⟨r1, r2⟩
          refine ⟨⟨Or.inr ⟨Mode.noConfusion, N, c4'.onHeap (heapOK_unmark _ cs bs _), hrv⟩, fun v => ?_,
            fun v => ?_⟩, fun h₀ hs₀ hm₀ hcs => ?_⟩
          · show (unmark cs bs τ₂.heap v).isControl = false
            obtain ⟨m, e⟩ := unmark_frame cs bs τ₂.heap v
            rw [e]
            dsimp only
            split
            · rfl
            · rename_i hv
              rw [hs.1.control]
              obtain ⟨c, e⟩ := hτ₁ v
              rw [e]
              dsimp only
              obtain ⟨x, m, e⟩ := seedAdjoint_frame J cs a bs τ.heap v
              rw [e]
              dsimp only
              rw [if_neg hv]
              exact h.flags v
          · show (unmark cs bs τ₂.heap v).marked = false
            unfold unmark
            rw [markAll_apply]
            split
            · rfl
            · rename_i hv
              have e1 : (markControls cs false τ₂.heap v).marked = (τ₂.heap v).marked := by
                rw [markControls_apply]; split <;> rfl
              rw [e1, hs.1.marked]
              obtain ⟨c, e⟩ := hτ₁ v
              rw [e]
              show (seedAdjoint J cs a bs τ.heap v).marked = false
              unfold seedAdjoint
              dsimp only
              rw [markControls_apply, markAll_apply, if_neg hv]
              have e2 : (resetVariables bs .adjoint τ.heap v).marked = false := by
                rw [resetVariables_apply]
                split <;> exact h.marks v
              by_cases hJ : v = J
              · subst hJ
                rw [Function.update_self]
                split <;> exact e2
              · rw [Function.update_of_ne hJ]
                split <;> exact e2
          · -- the reference
            have href : (computeGradient bs J cs a h₀).1 =
                cs.map (getDerivative (evaluateAdj bs true (seedAdjoint J cs a bs h₀))) := by
              unfold computeGradient computeGradientState markedAdjoint
              dsimp only
              refine List.map_congr_left fun c _ => ?_
              unfold getDerivative
              simp only [markAll_adj, markControls_adj]
              rfl
            rw [href]
            -- a heap with the recorded values and the state of the sweep
            have hg : ∀ v, saved (fun v => { τ₁.heap v with ckpt := none } : Heap V T A) v = out v := by
              intro v
              exact c1.clean.output v
            have hinv : RInv true out (fun v => { τ₁.heap v with ckpt := none }) N τ₁ := by
              refine ⟨by rw [c1.blocks]; exact ssa, by rw [c1.blocks]; exact hst, c1.clean, fun v => rfl,
                fun v _ => ?_⟩
              have : τ₁.blocksFrom N = [] := by
                unfold blocksFrom
                rw [← c1.length, List.drop_length]
                rfl
              rw [this]
              rfl
            have hfin : RInv true out (fun v => { τ₁.heap v with ckpt := none }) 0 τ₂ := by
              unfold reverseSweep at h₂
              rcases cr with ⟨r1, r2, r3⟩ | ⟨r1, r2⟩
              · rw [if_neg (by simp [r1])] at h₂
                exact firstReverse_inv hg r3 r2 hinv h₂
              · rw [if_pos r1] at h₂
                exact processes_inv hg _ r2 hinv h₂
            refine List.map_congr_left fun c hc => ?_
            have hcc : (τ₂.heap c).isControl = true := by
              rw [hs.1.control]
              obtain ⟨x, e⟩ := hτ₁ c
              rw [e]
              dsimp only
              obtain ⟨x, m, e⟩ := seedAdjoint_frame J cs a bs τ.heap c
              rw [e]
              dsimp only
              rw [if_pos hc]
            have hadj := hfin.adj c (Or.inl hcc)
            rw [blocksFrom_zero, hs.1.blocks, c1.blocks] at hadj
            refine getDerivative_congr ?_
            have hseed : ∀ v, OnTape bs v ∨ v = J →
                (seedAdjoint J cs a bs τ.heap v).adj = (seedAdjoint J cs a bs h₀ v).adj := by
              intro v hv
              have e : ∀ g : Heap V T A, (seedAdjoint J cs a bs g v).adj = if v = J then some a else none := by
                intro g
                unfold seedAdjoint
                dsimp only
                simp only [markControls_adj, markAll_adj]
                by_cases hJ : v = J
                · subst hJ
                  rw [Function.update_self, if_pos rfl]
                · rw [Function.update_of_ne hJ, if_neg hJ, resetVariables_apply, if_pos (hv.resolve_right hJ)]
                  rfl
              rw [e, e]
            have hmk : ∀ v, (seedAdjoint J cs a bs τ.heap v).marked = (seedAdjoint J cs a bs h₀ v).marked := by
              intro v
              have e : ∀ g : Heap V T A, (∀ v, (g v).marked = false) → (seedAdjoint J cs a bs g v).marked =
                  if v ∈ findRelevantNodes bs cs then true else false := by
                intro g hg
                have e2 : (resetVariables bs .adjoint g v).marked = false := by
                  rw [resetVariables_apply]
                  split <;> exact hg v
                unfold seedAdjoint
                dsimp only
                rw [markControls_apply, markAll_apply]
                by_cases hJ : v = J
                · subst hJ
                  rw [Function.update_self]
                  by_cases h1 : v ∈ cs <;> by_cases h2 : v ∈ findRelevantNodes bs cs <;> simp [h1, h2, e2]
                · rw [Function.update_of_ne hJ]
                  by_cases h1 : v ∈ cs <;> by_cases h2 : v ∈ findRelevantNodes bs cs <;> simp [h1, h2, e2]
              rw [e _ h.marks, e _ hm₀]
            have hcongr := evaluateAdj_congr_on (bs := bs) (m := true)
              (h := fun v => { τ₁.heap v with ckpt := none }) (h' := seedAdjoint J cs a bs h₀)
              (S := fun v => OnTape bs v ∨ v = J)
              (fun b hb => ⟨fun d hd => Or.inl ⟨b, hb, Or.inl hd⟩, fun o ho => Or.inl ⟨b, hb, Or.inr ho⟩⟩)
              (fun b hb d hd => by
                rw [hg d, ← hs₀ d]
                obtain ⟨x, m, e⟩ := seedAdjoint_frame J cs a bs h₀ d
                exact (saved_congr (by rw [e]) (by rw [e])).symm)
              (fun v hv => by
                obtain ⟨c, e⟩ := hτ₁ v
                dsimp only
                rw [e]
                exact hmk v)
              (fun v hv => by
                obtain ⟨c, e⟩ := hτ₁ v
                dsimp only
                rw [e]
                exact hseed v hv)
              c (hcs c hc)
            rw [← hcongr, ← hadj]
            obtain ⟨m, e⟩ := unmark_frame cs bs τ₂.heap c
            show (unmark cs bs τ₂.heap c).adj = _
            rw [e]

/-! ## Statement -/

/-- Evaluations at the control values `out` of the recording and derivatives, of any functionals with any controls
and in any order. -/
inductive Cycles [Add A] [Zero A] [Mul V] (truthy : V → Bool) (out : BV → V) :
    CTape V T A → CTape V T A → Prop
  | start (τ) : Cycles truthy out τ τ
  | call {τ₀ τ τ' : CTape V T A} {J scale y} {cs : List BV} (h : Cycles truthy out τ₀ τ)
      (hr : rfCall truthy J cs scale (cs.map out) τ = .ok (y, τ')) : Cycles truthy out τ₀ τ'
  | derivative {τ₀ τ τ' : CTape V T A} {J a ds} {cs : List BV} (h : Cycles truthy out τ₀ τ)
      (hr : rfDerivative J cs a τ = .ok (ds, τ')) : Cycles truthy out τ₀ τ'

theorem Cycles.ready [Add A] [Zero A] [Mul V] {out : BV → V} {sch : Schedule} (hwf : sch.WellFormed)
    (hrev : sch.Reverses) {bs : Blocks V T A} (ssa : WF bs) (hst : Stable (fun _ => True) bs out)
    {truthy : V → Bool} {τ τ' : CTape V T A} (hh : Cycles truthy out τ τ') (h : Ready out sch bs τ) :
    Ready out sch bs τ' := by
  induction hh with
  | start => exact h
  | call _ hr ih => exact rfCall_ready hwf hrev hst ih hr
  | derivative _ hr ih => exact (rfDerivative_ready hwf hrev ssa hst ih hr).1

/-- **C26** (partial: at the control values of the recording; `multistage_gradient_stale` and the refutations beside it
show that it fails at others).  For every recording and every well-formed schedule that reverses every step once,
after any number of evaluations at the recorded control values and of derivatives: a derivative that is computed is
the one that the same program recorded without checkpointing gives, provided recomputing an operation from the
recorded values gives the recorded result. -/
theorem cycles_gradient_partial [Add A] [Zero A] [Mul V] {sch : Schedule} {h : Heap V T A}
    {es : List (Event V T A)} {τ₀ τ : CTape V T A} (hr : Recorded sch h es τ₀) (hrev : sch.Reverses)
    (hfaithful : ∀ b ∈ Event.blocks es, ∀ (i : Nat) (o : BV), b.outs[i]? = some o →
      ∀ y, b.recomputeC (b.deps.map fun d => (h d).output) i = some y → y = (h o).output)
    {truthy : V → Bool} (hh : Cycles truthy (fun v => (h v).output) τ₀ τ)
    {J : BV} {cs : List BV} (hcs : ∀ c ∈ cs, OnTape (Event.blocks es) c ∨ c = J) {a : A} {ds : List A}
    {τ' : CTape V T A} (hd : rfDerivative J cs a τ = .ok (ds, τ')) :
    ds = (computeGradient (Event.blocks es) J cs a h).1 := by
  have hst : Stable (fun _ => True) (Event.blocks es) (fun v => (h v).output) :=
    fun b hb i o ho _ => ⟨fun _ _ => trivial, hfaithful b hb i o ho⟩
  have hal := hr.alive (fun _ => True)
  obtain ⟨gc, pk, eager, τ₁, hgc, h1, h2⟩ := hr.recorded
  have hf : Fresh (fun _ => True) (fun v => (h v).output) h :=
    ⟨fun _ => rfl, fun v _ c hc => (by rw [(hr.unused v).1] at hc; cases hc),
      fun v => (hr.unused v).2.2.2.1, fun v => (hr.unused v).2.2.2.2⟩
  have ht := (taped_enable hf hgc h1).recording es (show WF ([] ++ Event.blocks es) from hr.ssa) h2
  rw [List.nil_append] at ht
  have hready : Ready (fun v => (h v).output) sch (Event.blocks es) τ₀ :=
    ⟨Or.inl ht, hal.flags, fun v => (hr.same v).2.2.1.trans (hr.unused v).2.2.1⟩
  refine (rfDerivative_ready hr.wellFormed hrev hr.ssa hst (hh.ready hr.wellFormed hrev hr.ssa hst hready) hd).2 h
    (fun v => ?_) (fun v => (hr.unused v).2.2.1) hcs
  unfold saved
  rw [(hr.unused v).1]

/-! ### Non-vacuity -/

/-- Evaluation at the recorded value `2` of the control `0`. -/
def callAt2 (J : BV) (τ : CTape Int Int Int) : Except CkptError (Int × CTape Int Int Int) :=
  rfCall (fun x => x != 0) J [0] 1 [2] τ

/-- The state after a derivative. -/
def afterD : Except CkptError (List Int × CTape Int Int Int) → CTape Int Int Int
  | .error _ => emptyTape
  | .ok (_, τ) => τ

/-- The state after an evaluation. -/
def afterC : Except CkptError (Int × CTape Int Int Int) → CTape Int Int Int
  | .error _ => emptyTape
  | .ok (_, τ) => τ

theorem afterD_ok {r : Except CkptError (List Int × CTape Int Int Int)} (h : derivatives r ≠ none) :
    ∃ ds, r = .ok (ds, afterD r) := by
  cases r with
  | error e => exact absurd rfl h
  | ok r => exact ⟨r.1, rfl⟩

/-- Whether an evaluation succeeded. -/
def succeeded : Except CkptError (Int × CTape Int Int Int) → Bool
  | .error _ => false
  | .ok _ => true

theorem afterC_ok {r : Except CkptError (Int × CTape Int Int Int)} (h : succeeded r = true) :
    ∃ y, r = .ok (y, afterC r) := by
  cases r with
  | error e => cases h
  | ok r => exact ⟨r.1, rfl⟩

/-- `J(x) = x⁴` recorded at `x = 2` with the multistage schedule; derivative, evaluation of the intermediate value
`x²`, its derivative, and evaluation of `J` follow. -/
def exCycle : CTape Int Int Int :=
  let τ := tapeOf emptyTape (record multistage2 (freshHeap [2, 4, 16]) exPower)
  let τ := afterD (rfDerivative 2 [0] 1 τ)
  let τ := afterC (callAt2 1 τ)
  let τ := afterD (rfDerivative 1 [0] 1 τ)
  afterC (callAt2 2 τ)

/-- `cycles_gradient_partial` applies: the next derivative is again `32`. -/
example : derivatives (rfDerivative 2 [0] 1 exCycle) = some [32] := by
  have hr := recorded_of (out := [2, 4, 16]) multistage2_wellFormed exPower_wf (by decide +kernel)
  obtain ⟨ds, hd⟩ := afterD_ok (r := rfDerivative 2 [0] 1 exCycle) (by decide +kernel)
  obtain ⟨d₁, h₁⟩ := afterD_ok (r := rfDerivative 2 [0] 1
    (tapeOf emptyTape (record multistage2 (freshHeap [2, 4, 16]) exPower))) (by decide +kernel)
  obtain ⟨y₂, h₂⟩ := afterC_ok (r := callAt2 1 (afterD (rfDerivative 2 [0] 1
    (tapeOf emptyTape (record multistage2 (freshHeap [2, 4, 16]) exPower))))) (by decide +kernel)
  obtain ⟨d₃, h₃⟩ := afterD_ok (r := rfDerivative 1 [0] 1 (afterC (callAt2 1 (afterD (rfDerivative 2 [0] 1
    (tapeOf emptyTape (record multistage2 (freshHeap [2, 4, 16]) exPower))))))) (by decide +kernel)
  obtain ⟨y₄, h₄⟩ := afterC_ok (r := callAt2 2 (afterD (rfDerivative 1 [0] 1 (afterC (callAt2 1 (afterD
    (rfDerivative 2 [0] 1 (tapeOf emptyTape (record multistage2 (freshHeap [2, 4, 16]) exPower)))))))))
    (by decide +kernel)
  have hh : Cycles (fun x => x != 0) (fun v => (freshHeap [2, 4, 16] v).output) _ exCycle :=
    .call (.derivative (.call (.derivative (.start _) h₁) h₂) h₃) h₄
  have := cycles_gradient_partial hr multistage2_reverses (by
      intro b hb i o ho y hy
      simp only [exPower, Event.blocks, List.mem_cons, List.not_mem_nil, or_false] at hb
      rcases hb with rfl | rfl <;>
      · cases i with
        | zero => simp [mulBlk] at ho; subst ho; cases hy; rfl
        | succ i => simp [mulBlk] at ho) hh
    (fun c hc => by
      rw [List.mem_singleton] at hc
      subst hc
      exact Or.inl ⟨mulBlk 0 0 1, by simp [exPower, Event.blocks], Or.inl (by simp [mulBlk])⟩) hd
  rw [hd, this]
  decide +kernel

end CTape
end Pyadjoint
