import Verif.Props.CheckpointCycles

/-! # What a derivative computation with a manager leaves in the adjoint values -/

namespace Pyadjoint

variable {V T A : Type*}

theorem evaluateAdj_of_not_dep [Add A] (bs : Blocks V T A) (m : Bool) (h : Heap V T A) (v : BV)
    (hv : ∀ b ∈ bs, v ∉ b.deps) : evaluateAdj bs m h v = h v := by
  induction bs with
  | nil => rfl
  | cons b bs ih =>
    rw [evaluateAdj_cons, Block.evaluateAdj_apply, ih fun b' hb' => hv b' (List.mem_cons_of_mem _ hb')]
    have hn := entries_nil_of_not_mem (hv b List.mem_cons_self)
    unfold Block.adjAfter
    rw [hn]
    simp only [List.foldl_nil, ite_self, ih fun b' hb' => hv b' (List.mem_cons_of_mem _ hb')]

namespace CTape

/-- The outputs of the steps from `k` on that are not controls have no adjoint value. -/
def Quiet (k : Nat) (τ : CTape V T A) : Prop :=
  ∀ b ∈ τ.blocksFrom k, ∀ o ∈ b.outs, (τ.heap o).isControl = false → (τ.heap o).adj = none

theorem Quiet.shape {k : Nat} {τ τ' : CTape V T A} (h : Quiet k τ) (hs : Shape τ τ')
    (ha : ∀ v, (τ'.heap v).adj = (τ.heap v).adj) : Quiet k τ' := by
  intro b hb o ho hc
  rw [hs.blocksFrom] at hb
  rw [hs.control] at hc
  rw [ha]
  exact h b hb o ho hc

theorem reverseStep_quiet [Add A] {k : Nat} {clear m : Bool} {τ τ' : CTape V T A}
    (h : reverseStep k clear m τ = .ok τ') (wf : WF τ.blocks) (hq : Quiet (k + 1) τ) : Quiet k τ' := by
  have hshape := reverseStep_shape h
  obtain ⟨s, s', hs, hst, hb, hss, hck, -, -, -, hm, -, hv⟩ := reverseStep_ok h
  intro b hb o ho hc
  rw [hshape.blocksFrom, blocksFrom_eq hs] at hb
  rw [hshape.control] at hc
  have hce : (evaluateAdj s.blocks m τ.heap o).isControl = false := by rw [evaluateAdj_isControl]; exact hc
  rw [hv o]
  by_cases hin : o ∈ s.outs
  · rw [if_pos hin]
    unfold resetOut
    simp only [Function.update_self, hce]
    split <;> rfl
  · rw [if_neg hin]
    rcases List.mem_append.1 hb with hb | hb
    · exact absurd (CStep.mem_outs.2 ⟨b, hb, ho⟩) hin
    · obtain ⟨pre, hpre⟩ := blocks_split τ k
      rw [blocksFrom_eq hs] at hpre
      have hlater : ∀ b ∈ s.blocks, ∀ b' ∈ τ.blocksFrom (k + 1),
          (∀ d ∈ b.deps, d ∉ b'.outs) ∧ ∀ o ∈ b.outs, o ∉ b'.outs := by
        have := wf.later
        rw [hpre] at this
        exact (List.pairwise_append.1 (List.pairwise_append.1 this).2.1).2.2
      rw [evaluateAdj_of_not_dep s.blocks m τ.heap o fun b' hb' hd => (hlater b' hb' b hb).1 o hd ho]
      exact hq b hb o ho hc

theorem reverseSteps_quiet [Add A] {m clear : Bool} (l : List Nat) {rest : List Nat} {n : Nat} {τ τ' : CTape V T A}
    (hl : l ++ rest = countdown n) (wf : WF τ.blocks) (hq : Quiet n τ)
    (h : l.foldlM (fun τ k => reverseStep k clear m τ) τ = .ok τ') :
    ∃ n', rest = countdown n' ∧ WF τ'.blocks ∧ Quiet n' τ' := by
  induction l generalizing n τ with
  | nil => cases h; exact ⟨n, hl, wf, hq⟩
  | cons k l ih =>
    rw [List.cons_append] at hl
    obtain ⟨rfl, hl'⟩ := countdown_cons hl
    rw [List.foldlM_cons] at h
    cases h1 : reverseStep k clear m τ with
    | error e => rw [h1] at h; cases h
    | ok τ₁ =>
      rw [h1] at h
      exact ih hl' (by rw [(reverseStep_shape h1).blocks]; exact wf) (reverseStep_quiet h1 wf hq) h

theorem process_quiet [Add A] {m : Bool} {a : Action} {as : List Action} {keepJ : List BV} {n : Nat}
    {τ τ' : CTape V T A} (hl : reversedSteps (a :: as) = countdown n) (wf : WF τ.blocks) (hq : Quiet n τ)
    (h : process m keepJ τ a = .ok τ') :
    ∃ n', reversedSteps as = countdown n' ∧ WF τ'.blocks ∧ Quiet n' τ' := by
  have other : (∀ n1 n0 c, a ≠ .reverse n1 n0 c) → reversedSteps (a :: as) = reversedSteps as →
      ∃ n', reversedSteps as = countdown n' ∧ WF τ'.blocks ∧ Quiet n' τ' := by
    intro hne he
    have hs := process_shape h
    exact ⟨n, he ▸ hl, by rw [hs.blocks]; exact wf, hq.shape hs (process_adj_frame h hne)⟩
  cases a with
  | reverse n1 n0 clear => exact reverseSteps_quiet (reverseRange n1 n0) hl wf hq h
  | forward => exact other (fun _ _ _ => Action.noConfusion) rfl
  | copy => exact other (fun _ _ _ => Action.noConfusion) rfl
  | move => exact other (fun _ _ _ => Action.noConfusion) rfl
  | endForward => exact other (fun _ _ _ => Action.noConfusion) rfl
  | endReverse => exact other (fun _ _ _ => Action.noConfusion) rfl

theorem processes_quiet [Add A] {m : Bool} {keepJ : List BV} (l : List Action) {n : Nat} {τ τ' : CTape V T A}
    (hl : reversedSteps l = countdown n) (wf : WF τ.blocks) (hq : Quiet n τ)
    (h : l.foldlM (process m keepJ) τ = .ok τ') : Quiet 0 τ' := by
  induction l generalizing n τ with
  | nil =>
    cases h
    cases n with
    | zero => exact hq
    | succ n => rw [countdown_succ] at hl; cases hl
  | cons a l ih =>
    rw [List.foldlM_cons] at h
    cases h₁ : process m keepJ τ a with
    | error e => rw [h₁] at h; cases h
    | ok τ₁ =>
      rw [h₁] at h
      obtain ⟨n', g1, g2, g3⟩ := process_quiet hl wf hq h₁
      exact ih g1 g2 g3 h

theorem firstReverse_quiet [Add A] {m : Bool} {acts : List Action} {n : Nat} {τ τ' : CTape V T A}
    (hcur : τ.mgr.current ≠ .endReverse) (hl : reversedSteps (untilEndReverse acts) = countdown n)
    (wf : WF τ.blocks) (hq : Quiet n τ) (h : firstReverse m acts τ = .ok τ') : Quiet 0 τ' := by
  induction acts generalizing n τ with
  | nil =>
    unfold firstReverse at h
    rw [if_neg hcur] at h
    cases h
  | cons a acts ih =>
    unfold firstReverse at h
    rw [if_neg hcur] at h
    dsimp only at h
    split at h
    · cases h
    · rename_i τ₁ h₁
      unfold perform at h₁
      have hc₁ : τ₁.mgr.current = a := process_current h₁
      have step : ∀ {as : List Action}, reversedSteps (a :: as) = countdown n →
          ∃ n', reversedSteps as = countdown n' ∧ WF τ₁.blocks ∧ Quiet n' τ₁ := fun hl =>
        process_quiet (τ := { τ with mgr := { τ.mgr with rev := τ.mgr.rev ++ [a], current := a } }) hl wf hq h₁
      unfold untilEndReverse at hl
      split at hl
      · rename_i ha
        obtain ⟨n', g1, -, g2⟩ := step hl
        have : n' = 0 := by
          cases n' with
          | zero => rfl
          | succ n' => rw [countdown_succ] at g1; cases g1
        subst this
        unfold firstReverse at h
        rw [if_pos (by rw [hc₁]; exact ha)] at h
        cases h
        exact g2
      · rename_i ha
        obtain ⟨n', g1, g2, g3⟩  := step hl
        exact ih (by rw [hc₁]; exact ha) g1 g2 g3 h

/-- The tape at any time after recording, whatever the values, with what is known about the actions to come. -/
structure Usable (sch : Schedule) (bs : Blocks V T A) (out : BV → V) (τ : CTape V T A) : Prop where
  state : Taped (fun _ => False) out sch bs τ ∨
    (τ.mgr.mode ≠ .record ∧ ∃ N, Core (fun _ => False) out N bs τ ∧ RevOK N τ)
  flags : ∀ v, (τ.heap v).isControl = false
  marks : ∀ v, (τ.heap v).marked = false

theorem Usable.blocks {sch : Schedule} {bs : Blocks V T A} {out : BV → V} {τ : CTape V T A}
    (h : Usable sch bs out τ) : τ.blocks = bs := by
  rcases h.state with h | ⟨-, N, h, -⟩
  · exact h.blocks
  · exact h.blocks

theorem stable_false (bs : Blocks V T A) (out : BV → V) : Stable (fun _ => False) bs out :=
  fun _ _ _ _ _ h => h.elim

theorem Exact.no_reverse {n N : Nat} {fwd : List Action} (h : Exact n N fwd) :
    ∀ a ∈ fwd, ∀ n1 n0 c, a ≠ Action.reverse n1 n0 c := by
  induction h with
  | done => simp
  | step _ _ _ _ _ _ _ _ _ _ ih => simpa using ih
  | last _ _ _ _ _ _ _ _ ih => simpa using ih

theorem forwardSweep_adj [Add A] {keepJ : List BV} {N n : Nat} {τ τ' : CTape V T A} (hf : Exact n N τ.mgr.fwd)
    (h : forwardSweep keepJ τ = .ok τ') (v : BV) : (τ'.heap v).adj = (τ.heap v).adj := by
  unfold forwardSweep at h
  split at h
  · split at h
    · cases h
    · rename_i s _
      have key := foldlM_ind (R := fun τ τ' : CTape V T A => ∀ v, (τ'.heap v).adj = (τ.heap v).adj) (fun _ _ => rfl)
        (fun _ _ _ h h' v => (h' v).trans (h v)) _
        (fun τ τ' a ha (h : perform false keepJ τ a = .ok τ') => by
          unfold perform at h
          exact process_adj_frame (τ := { τ with mgr := { τ.mgr with current := a } }) h (hf.no_reverse a ha))
        (τ := { τ with heap := s.restore τ.heap }) h
      rw [key]
      obtain ⟨c, e⟩ := restore_frame s τ.heap v
      show (s.restore τ.heap v).adj = _
      rw [e]
  · cases h

/-- An evaluation does not touch adjoint values and keeps the tape usable. -/
theorem rfCall_usable [Add A] [Mul V] {out : BV → V} {sch : Schedule} (hwf : sch.WellFormed)
    (hrev : sch.Reverses) {bs : Blocks V T A} {truthy : V → Bool} {J : BV} {cs : List BV} {scale : V} {xs : List V}
    {τ τ' : CTape V T A} {y : V} (h : Usable sch bs out τ) (hr : rfCall truthy J cs scale xs τ = .ok (y, τ')) :
    Usable sch bs out τ' ∧ (∀ v, (τ'.heap v).adj = (τ.heap v).adj) := by
  unfold rfCall at hr
  dsimp only at hr
  split at hr
  · cases hr
  · rename_i τ₂ h₂
    simp only [Except.ok.injEq, Prod.mk.injEq] at hr
    obtain ⟨-, rfl⟩ := hr
    unfold recomputeTape at h₂
    split at h₂
    · cases h₂
    · rename_i τ₁ h₁
      have hok := heapOK_call (P := fun _ => False) (cs := cs) (fun _ h => h.elim) xs τ.heap
      obtain ⟨⟨N, c1, cr⟩, c2, c3⟩ := finishTaping_ready hwf hrev
        (h.state.imp (fun h => h.onHeap hok) (fun ⟨hm, N, hc, hv⟩ => ⟨hm, N, hc.onHeap hok, hv⟩)) h₁
      have c1' : Core (fun _ => False) out N bs { τ₁ with mgr := { τ₁.mgr with mode := .recompute } } :=
        ⟨c1.pos, ⟨c1.live.dep, c1.live.carry, c1.live.init⟩, c1.total, c1.length, c1.fwd,
          ⟨c1.clean.output, c1.clean.heap, c1.clean.stored⟩, c1.blocks⟩
      have hs := forwardSweep_clean (fun _ => False) out h₂
      have hm : τ₂.mgr.mode ≠ .record := forwardSweep_mode h₂ Mode.noConfusion
      have hrv : RevOK N τ₂ :=
        forwardSweep_revOK (τ := { τ₁ with mgr := { τ₁.mgr with mode := .recompute } }) c1.fwd h₂ cr
      refine ⟨⟨Or.inr ⟨hm, N, (c1'.evolve (stable_false bs out) hs).onHeap (heapOK_mark _ cs false _), hrv⟩, fun v => ?_,
        fun v => ?_⟩, fun v => ?_⟩
      · show (markControls cs false τ₂.heap v).isControl = false
        rw [markControls_apply]
        split
        · rfl
        · rename_i hv
          rw [hs.1.control]
          obtain ⟨c, e⟩ := c3 v
          show (τ₁.heap v).isControl = false
          rw [e]
          show (markControls cs true (updateControls cs xs τ.heap) v).isControl = false
          rw [markControls_apply, if_neg hv, updateControls_isControl]
          exact h.flags v
      · have e1 : (markControls cs false τ₂.heap v).marked = (τ₂.heap v).marked := by
          rw [markControls_apply]; split <;> rfl
        show (markControls cs false τ₂.heap v).marked = false
        rw [e1, hs.1.marked]
        obtain ⟨c, e⟩ := c3 v
        show (τ₁.heap v).marked = false
        rw [e]
        show (markControls cs true (updateControls cs xs τ.heap) v).marked = false
        obtain ⟨c, e⟩ := updateControls_frame cs xs τ.heap v
        rw [markControls_apply]
        split <;> (rw [e]; exact h.marks v)
      · have e1 : (markControls cs false τ₂.heap v).adj = (τ₂.heap v).adj := by
          rw [markControls_apply]; split <;> rfl
        show (markControls cs false τ₂.heap v).adj = _
        rw [e1, forwardSweep_adj (τ := { τ₁ with mgr := { τ₁.mgr with mode := .recompute } }) c1.fwd h₂]
        obtain ⟨c, e⟩ := c3 v
        show (τ₁.heap v).adj = _
        rw [e]
        show (markControls cs true (updateControls cs xs τ.heap) v).adj = _
        obtain ⟨c, e⟩ := updateControls_frame cs xs τ.heap v
        rw [markControls_apply]
        split <;> rw [e]

/-- A derivative leaves no adjoint value on the outputs of operations that are not among its controls. -/
theorem rfDerivative_usable [Add A] [Zero A] {out : BV → V} {sch : Schedule} (hwf : sch.WellFormed)
    (hrev : sch.Reverses) {bs : Blocks V T A} (ssa : WF bs) {J : BV} {cs : List BV} {a : A} {τ τ' : CTape V T A}
    {ds : List A} (h : Usable sch bs out τ) (hr : rfDerivative J cs a τ = .ok (ds, τ')) :
    Usable sch bs out τ' ∧ ∀ b ∈ bs, ∀ o ∈ b.outs, o ∉ cs → (τ'.heap o).adj = none := by
  have hbl := h.blocks
  unfold rfDerivative at hr
  rw [hbl] at hr
  split at hr
  · cases hr
  · rename_i τ₃ h₃
    simp only [Except.ok.injEq, Prod.mk.injEq] at hr
    obtain ⟨-, rfl⟩ := hr
    unfold evaluateAdjTape at h₃
    split at h₃
    · cases h₃
    · rename_i τ₁ h₁
      split at h₃
      · cases h₃
      · split at h₃
        · cases h₃
        · rename_i τ₂ h₂
          cases h₃
          have hok := heapOK_seed (fun _ => False) J cs a bs τ.heap
          obtain ⟨⟨N, c1, cr⟩, c2, c3⟩ := finishTaping_ready hwf hrev
            (h.state.imp (fun h => h.onHeap hok) (fun ⟨hm, N, hc, hv⟩ => ⟨hm, N, hc.onHeap hok, hv⟩)) h₁
          have hs := reverseSweep_clean (fun _ => False) out h₂
          have c4 := c1.evolve (stable_false bs out) hs
          have c4' : Core (fun _ => False) out N bs { τ₂ with mgr := { τ₂.mgr with mode := .evaluateAdjoint } } :=
            ⟨c4.pos, ⟨c4.live.dep, c4.live.carry, c4.live.init⟩, c4.total, c4.length, c4.fwd,
              ⟨c4.clean.output, c4.clean.heap, c4.clean.stored⟩, c4.blocks⟩
          have hτ₁ : ∀ v, ∃ c, τ₁.heap v = { seedAdjoint J cs a bs τ.heap v with ckpt := c } := c3
          have hrv : RevOK N τ₂ := by
            right
            have hne : ∀ l, reversedSteps l = countdown N → l ≠ [] := by
              rintro l hl rfl
              have := congrArg List.length hl
              simp [reversedSteps, countdown] at this
              have := c1.pos
              omega
            unfold reverseSweep at h₂
            rcases cr with ⟨r1, r2, r3⟩ | ⟨r1, r2⟩
            · rw [if_neg (by simp [r1])] at h₂
              obtain ⟨e, -⟩ := firstReverse_rev r3 h₂
              rw [e, r1, List.nil_append]
              exact ⟨hne _ r2, r2⟩
            · rw [if_pos r1] at h₂
              rw [processes_rev h₂]
              exact ⟨r1, r2⟩
          have hctl : ∀ v, (τ₂.heap v).isControl = if v ∈ cs then true else false := by
            intro v
            rw [hs.1.control]
            obtain ⟨c, e⟩ := hτ₁ v
            rw [e]
            dsimp only
            obtain ⟨x, m, e⟩ := seedAdjoint_frame J cs a bs τ.heap v
            rw [e]
            dsimp only
            rw [h.flags v]
          refine ⟨⟨Or.inr ⟨Mode.noConfusion, N, c4'.onHeap (heapOK_unmark _ cs bs _), hrv⟩, fun v => ?_,
            fun v => ?_⟩, fun b hb o ho hoc => ?_⟩
          · show (unmark cs bs τ₂.heap v).isControl = false
            obtain ⟨m, e⟩ := unmark_frame cs bs τ₂.heap v
            rw [e]
            dsimp only
            rw [hctl]
            split <;> rfl
          · show (unmark cs bs τ₂.heap v).marked = false
            unfold unmark
            rw [markAll_apply]
            split
            · rfl
            · rename_i hv
              have e1 : (markControls cs false τ₂.heap v).marked = (τ₂.heap v).marked := by
                rw [markControls_apply]; split <;> rfl
              rw [e1, hs.1.marked]
              obtain ⟨c, e⟩ := hτ₁ v
              rw [e]
              show (seedAdjoint J cs a bs τ.heap v).marked = false
              unfold seedAdjoint
              dsimp only
              rw [markControls_apply, markAll_apply, if_neg hv]
              have e2 : (resetVariables bs .adjoint τ.heap v).marked = false := by
                classical
                rw [resetVariables_apply]
                split <;> exact h.marks v
              by_cases hJ : v = J
              · subst hJ
                rw [Function.update_self]
                split <;> exact e2
              · rw [Function.update_of_ne hJ]
                split <;> exact e2
          · have hq₁ : Quiet N τ₁ := by
              have : τ₁.blocksFrom N = [] := by
                unfold blocksFrom
                rw [← c1.length, List.drop_length]
                rfl
              intro b hb
              rw [this] at hb
              cases hb
            have wf₁ : WF τ₁.blocks := by rw [c1.blocks]; exact ssa
            have hfin : Quiet 0 τ₂ := by
              unfold reverseSweep at h₂
              rcases cr with ⟨r1, r2, r3⟩ | ⟨r1, r2⟩
              · rw [if_neg (by simp [r1])] at h₂
                exact firstReverse_quiet r3 r2 wf₁ hq₁ h₂
              · rw [if_pos r1] at h₂
                exact processes_quiet _ r2 wf₁ hq₁ h₂
            have := hfin b (by rw [blocksFrom_zero, hs.1.blocks, c1.blocks]; exact hb) o ho
              (by rw [hctl, if_neg hoc])
            show (unmark cs bs τ₂.heap o).adj = none
            obtain ⟨m, e⟩ := unmark_frame cs bs τ₂.heap o
            rw [e]
            exact this

/-- Evaluations and derivatives of any functionals with any controls, at any values and in any order. -/
inductive Uses [Add A] [Zero A] [Mul V] (truthy : V → Bool) : CTape V T A → CTape V T A → Prop
  | start (τ) : Uses truthy τ τ
  | call {τ₀ τ τ' : CTape V T A} {J cs scale xs y} (h : Uses truthy τ₀ τ)
      (hr : rfCall truthy J cs scale xs τ = .ok (y, τ')) : Uses truthy τ₀ τ'
  | derivative {τ₀ τ τ' : CTape V T A} {J cs a ds} (h : Uses truthy τ₀ τ)
      (hr : rfDerivative J cs a τ = .ok (ds, τ')) : Uses truthy τ₀ τ'

/-- Evaluations only. -/
inductive Evals [Add A] [Mul V] (truthy : V → Bool) : CTape V T A → CTape V T A → Prop
  | start (τ) : Evals truthy τ τ
  | call {τ₀ τ τ' : CTape V T A} {J cs scale xs y} (h : Evals truthy τ₀ τ)
      (hr : rfCall truthy J cs scale xs τ = .ok (y, τ')) : Evals truthy τ₀ τ'

theorem Recorded.usable {sch : Schedule} {h : Heap V T A} {es : List (Event V T A)} {τ : CTape V T A}
    (hr : Recorded sch h es τ) : Usable sch (Event.blocks es) (fun v => (h v).output) τ := by
  have hal := hr.alive (fun _ => False)
  refine ⟨?_, hal.flags, fun v => (hr.same v).2.2.1.trans (hr.unused v).2.2.1⟩
  obtain ⟨gc, pk, eager, τ₁, hgc, h1, h2⟩ := hr.recorded
  have hf : Fresh (fun _ => False) (fun v => (h v).output) h :=
    ⟨fun _ => rfl, fun v hv => hv.elim, fun v => (hr.unused v).2.2.2.1, fun v => (hr.unused v).2.2.2.2⟩
  have ht := (taped_enable hf hgc h1).recording es (show WF ([] ++ Event.blocks es) from hr.ssa) h2
  rw [List.nil_append] at ht
  exact Or.inl ht

theorem Uses.usable [Add A] [Zero A] [Mul V] {out : BV → V} {sch : Schedule} (hwf : sch.WellFormed)
    (hrev : sch.Reverses) {bs : Blocks V T A} (ssa : WF bs) {truthy : V → Bool} {τ τ' : CTape V T A}
    (hh : Uses truthy τ τ') (h : Usable sch bs out τ) : Usable sch bs out τ' := by
  induction hh with
  | start => exact h
  | call _ hr ih => exact (rfCall_usable hwf hrev ih hr).1
  | derivative _ hr ih => exact (rfDerivative_usable hwf hrev ssa ih hr).1

theorem Evals.usable [Add A] [Mul V] {out : BV → V} {sch : Schedule} (hwf : sch.WellFormed)
    (hrev : sch.Reverses) {bs : Blocks V T A} {truthy : V → Bool} {τ τ' : CTape V T A}
    (hh : Evals truthy τ τ') (h : Usable sch bs out τ) :
    Usable sch bs out τ' ∧ ∀ v, (τ'.heap v).adj = (τ.heap v).adj := by
  induction hh with
  | start => exact ⟨h, fun _ => rfl⟩
  | call _ hr ih =>
    obtain ⟨h1, h2⟩ := rfCall_usable hwf hrev ih.1 hr
    exact ⟨h1, fun v => (h2 v).trans (ih.2 v)⟩

end CTape
end Pyadjoint
