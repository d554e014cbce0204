import Verif.Model.CheckpointByHand
import Verif.Model.ByHand
import Verif.Proofs.CkptQuiet
import Verif.Props.CheckpointHessian

/-!
# C84: adjoint sweeps driven by hand, with checkpointing

As long as every evaluation uses the control values of the recording, `tape.evaluate_adj()` leaves in the variables that
no operation computes what the same call without checkpointing leaves, and nothing in the others
(`by_hand_sweep_partial`).  At other values a sweep by hand silently spoils later derivatives
(`by_hand_spoils_derivative`).
-/

namespace Pyadjoint
namespace CTape

variable {V T A : Type*}

/-! ### Outputs of reversed steps have no adjoint values -/

/-- Steps from `k` on have been reversed with no variable marked as a control. -/
structure Cleared (k : Nat) (τ : CTape V T A) : Prop where
  wf : WF τ.blocks
  flags : ∀ v, (τ.heap v).isControl = false
  none : ∀ v, (∃ b ∈ τ.blocksFrom k, v ∈ b.outs) → (τ.heap v).adj = none

theorem Cleared.shape {k : Nat} {τ τ' : CTape V T A} (h : Cleared k τ) (hs : Shape τ τ')
    (ha : ∀ v, (τ'.heap v).adj = (τ.heap v).adj) : Cleared k τ' :=
  ⟨by rw [hs.blocks]; exact h.wf, fun v => (hs.control v).trans (h.flags v), fun v hv => by
    rw [ha]; rw [hs.blocksFrom] at hv; exact h.none v hv⟩

theorem reverseStep_cleared [Add A] {k : Nat} {clear m : Bool} {τ τ' : CTape V T A}
    (h : reverseStep k clear m τ = .ok τ') (hinv : Cleared (k + 1) τ) : Cleared k τ' := by
  have hshape := reverseStep_shape h
  obtain ⟨s, s', hs, hst, hb, hss, hck, -, -, -, hm, -, hv⟩ := reverseStep_ok h
  refine ⟨by rw [hshape.blocks]; exact hinv.wf, fun v => (hshape.control v).trans (hinv.flags v), fun v hvo => ?_⟩
  rw [hshape.blocksFrom, blocksFrom_eq hs] at hvo
  obtain ⟨pre, hpre⟩ := blocks_split τ k
  rw [blocksFrom_eq hs] at hpre
  have hlater : ∀ b ∈ s.blocks, ∀ b' ∈ τ.blocksFrom (k + 1),
      (∀ d ∈ b.deps, d ∉ b'.outs) ∧ ∀ o ∈ b.outs, o ∉ b'.outs := by
    have := hinv.wf.later
    rw [hpre] at this
    exact (List.pairwise_append.1 (List.pairwise_append.1 this).2.1).2.2
  rw [hv v]
  split
  · have hc : (evaluateAdj s.blocks m τ.heap v).isControl = false := by
      obtain ⟨a, e⟩ := evaluateAdj_frame s.blocks m τ.heap v
      rw [e]; exact hinv.flags v
    unfold resetOut
    simp only [Function.update_self, hc, Bool.false_eq_true, if_false]
    split <;> rfl
  · rename_i ho
    obtain ⟨b, hb, hbo⟩ := hvo
    rcases List.mem_append.1 hb with hb | hb
    · exact absurd (CStep.mem_outs.2 ⟨b, hb, hbo⟩) ho
    · rw [evaluateAdj_of_not_dep _ _ _ _ fun b' hb' hd => (hlater b' hb' b hb).1 v hd hbo]
      exact hinv.none v ⟨b, hb, hbo⟩

theorem reverseSteps_cleared [Add A] {m clear : Bool} (l : List Nat) {rest : List Nat} {n : Nat} {τ τ' : CTape V T A}
    (hl : l ++ rest = countdown n) (hinv : Cleared n τ)
    (h : l.foldlM (fun τ k => reverseStep k clear m τ) τ = .ok τ') :
    ∃ n', rest = countdown n' ∧ Cleared n' τ' := by
  induction l generalizing n τ with
  | nil => cases h; exact ⟨n, hl, hinv⟩
  | cons k l ih =>
    rw [List.cons_append] at hl
    obtain ⟨rfl, hl'⟩ := countdown_cons hl
    rw [List.foldlM_cons] at h
    cases h1 : reverseStep k clear m τ with
    | error e => rw [h1] at h; cases h
    | ok τ₁ =>
      rw [h1] at h
      exact ih hl' (reverseStep_cleared h1 hinv) h

theorem process_cleared [Add A] {m : Bool} {a : Action} {as : List Action} {keepJ : List BV} {n : Nat}
    {τ τ' : CTape V T A} (hl : reversedSteps (a :: as) = countdown n) (hinv : Cleared n τ)
    (h : process m keepJ τ a = .ok τ') : ∃ n', reversedSteps as = countdown n' ∧ Cleared n' τ' := by
  have other : (∀ n1 n0 c, a ≠ .reverse n1 n0 c) → reversedSteps (a :: as) = reversedSteps as →
      ∃ n', reversedSteps as = countdown n' ∧ Cleared n' τ' := by
    intro hne he
    exact ⟨n, he ▸ hl, hinv.shape (process_shape h) (process_adj_frame h hne)⟩
  cases a with
  | reverse n1 n0 clear => exact reverseSteps_cleared (reverseRange n1 n0) hl hinv h
  | forward => exact other (fun _ _ _ => Action.noConfusion) rfl
  | copy => exact other (fun _ _ _ => Action.noConfusion) rfl
  | move => exact other (fun _ _ _ => Action.noConfusion) rfl
  | endForward => exact other (fun _ _ _ => Action.noConfusion) rfl
  | endReverse => exact other (fun _ _ _ => Action.noConfusion) rfl

theorem processes_cleared [Add A] {m : Bool} {keepJ : List BV} (l : List Action) {n : Nat} {τ τ' : CTape V T A}
    (hl : reversedSteps l = countdown n) (hinv : Cleared n τ)
    (h : l.foldlM (process m keepJ) τ = .ok τ') : Cleared 0 τ' := by
  induction l generalizing n τ with
  | nil =>
    cases h
    cases n with
    | zero => exact hinv
    | succ n => rw [countdown_succ] at hl; cases hl
  | cons a l ih =>
    rw [List.foldlM_cons] at h
    cases h₁ : process m keepJ τ a with
    | error e => rw [h₁] at h; cases h
    | ok τ₁ =>
      rw [h₁] at h
      obtain ⟨n', g1, g2⟩ := process_cleared hl hinv h₁
      exact ih g1 g2 h

theorem firstReverse_cleared [Add A] {m : Bool} {acts : List Action} {n : Nat} {τ τ' : CTape V T A}
    (hcur : τ.mgr.current ≠ .endReverse)
    (hl : reversedSteps (untilEndReverse acts) = countdown n) (hinv : Cleared n τ)
    (h : firstReverse m acts τ = .ok τ') : Cleared 0 τ' := by
  induction acts generalizing n τ with
  | nil =>
    unfold firstReverse at h
    rw [if_neg hcur] at h
    cases h
  | cons a acts ih =>
    unfold firstReverse at h
    rw [if_neg hcur] at h
    dsimp only at h
    split at h
    · cases h
    · rename_i τ₁ h₁
      have hc₁ : τ₁.mgr.current = a := process_current (by unfold perform at h₁; exact h₁)
      have hinv₀ : Cleared n { τ with mgr := { τ.mgr with rev := τ.mgr.rev ++ [a], current := a } } :=
        ⟨hinv.wf, hinv.flags, hinv.none⟩
      unfold perform at h₁
      unfold untilEndReverse at hl
      split at hl
      · rename_i ha
        obtain ⟨n', g1, g2⟩ := process_cleared hl hinv₀ h₁
        have : n' = 0 := by
          cases n' with
          | zero => rfl
          | succ n' => rw [countdown_succ] at g1; cases g1
        subst this
        unfold firstReverse at h
        rw [if_pos (by rw [hc₁]; exact ha)] at h
        cases h
        exact ⟨g2.wf, g2.flags, g2.none⟩
      · rename_i ha
        obtain ⟨n', g1, g2⟩ := process_cleared hl hinv₀ h₁
        exact ih (by rw [hc₁]; exact ha) g1 g2 h

/-! ### The state of the tape -/

theorem Ready.onHeap {out : BV → V} {sch : Schedule} {bs : Blocks V T A} {τ : CTape V T A}
    {f : Heap V T A → Heap V T A} (h : Ready out sch bs τ) (hf : ∀ v, ∃ a, f τ.heap v = { τ.heap v with adj := a }) :
    Ready out sch bs (τ.onHeap f) := by
  have hok : HeapOK (fun _ => True) f τ.heap := by
    refine ⟨fun v => ?_, fun v _ => ?_, fun v => ?_, fun v => ?_⟩ <;> (obtain ⟨a, e⟩ := hf v; rw [e])
  refine ⟨h.state.imp (fun h => h.onHeap hok) (fun ⟨hm, N, hc, hv⟩ => ⟨hm, N, hc.onHeap hok, hv⟩), fun v => ?_,
    fun v => ?_⟩ <;> obtain ⟨a, e⟩ := hf v
  · show (f τ.heap v).isControl = false
    rw [e]; exact h.flags v
  · show (f τ.heap v).marked = false
    rw [e]; exact h.marks v

theorem Ready.blocks {out : BV → V} {sch : Schedule} {bs : Blocks V T A} {τ : CTape V T A} (h : Ready out sch bs τ) :
    τ.blocks = bs := by
  rcases h.state with h | ⟨-, N, h, -⟩
  · exact h.blocks
  · exact h.blocks

theorem setAdj_frame (v : BV) (a : Option A) (h : Heap V T A) (w : BV) :
    ∃ x, Function.update h v { h v with adj := a } w = { h w with adj := x } := by
  by_cases hw : w = v
  · subst hw
    exact ⟨a, by rw [Function.update_self]⟩
  · exact ⟨(h w).adj, by rw [Function.update_of_ne hw]⟩

theorem resetAdj_frame (bs : Blocks V T A) (h : Heap V T A) (w : BV) :
    ∃ x, resetVariables bs .adjoint h w = { h w with adj := x } := by
  rw [resetVariables_apply]
  split
  · exact ⟨none, rfl⟩
  · exact ⟨(h w).adj, rfl⟩

/-- A sweep by hand keeps the tape in order; what it leaves in the adjoint values. -/
theorem sweepByHand_ready [Add A] {out : BV → V} {sch : Schedule} (hwf : sch.WellFormed) (hrev : sch.Reverses)
    {bs : Blocks V T A} (ssa : WF bs) (hst : Stable (fun _ => True) bs out) {τ τ' : CTape V T A} {last : Int}
    (h : Ready out sch bs τ) (hr : sweepByHand last τ = .ok τ') :
    Ready out sch bs τ' ∧ ∀ v,
      (τ'.heap v).adj = if ∃ b ∈ bs, v ∈ b.outs then none
        else (evaluateAdj bs false (fun v => { τ.heap v with ckpt := some (out v) }) v).adj := by
  classical
  unfold sweepByHand at hr
  split at hr
  · cases hr
  · cases h₃ : τ.evaluateAdjTape false with
    | error e => rw [h₃] at hr; cases hr
    | ok τ₃ =>
      rw [h₃] at hr
      cases hr
      unfold evaluateAdjTape at h₃
      split at h₃
      · cases h₃
      · rename_i τ₁ h₁
        split at h₃
        · cases h₃
        · split at h₃
          · cases h₃
          · rename_i τ₂ h₂
            cases h₃
            obtain ⟨⟨N, c1, cr⟩, c2, c3⟩ := finishTaping_ready hwf hrev h.state h₁
            have hs := reverseSweep_clean (fun _ => True) out h₂
            have c4 := c1.evolve hst hs
            have c4' : Core (fun _ => True) out N bs { τ₂ with mgr := { τ₂.mgr with mode := .evaluateAdjoint } } :=
              ⟨c4.pos, ⟨c4.live.dep, c4.live.carry, c4.live.init⟩, c4.total, c4.length, c4.fwd,
                ⟨c4.clean.output, c4.clean.heap, c4.clean.stored⟩, c4.blocks⟩
            have hrv : RevOK N τ₂ := by
              right
              have hne : ∀ l, reversedSteps l = countdown N → l ≠ [] := by
                rintro l hl rfl
                have := congrArg List.length hl
                simp [reversedSteps, countdown] at this
                have := c1.pos
                omega
              unfold reverseSweep at h₂
              rcases cr with ⟨r1, r2, r3⟩ | ⟨r1, r2⟩
              · rw [if_neg (by simp [r1])] at h₂
                obtain ⟨e, -⟩ := firstReverse_rev r3 h₂
                rw [e, r1, List.nil_append]
                exact ⟨hne _ r2, r2⟩
              · rw [if_pos r1] at h₂
                rw [processes_rev h₂]
                exact ⟨r1, r2⟩
            have hfl₁ : ∀ v, (τ₁.heap v).isControl = false := by
              intro v
              obtain ⟨c, e⟩ := c3 v
              rw [e]; exact h.flags v
            have hmk₁ : ∀ v, (τ₁.heap v).marked = false := by
              intro v
              obtain ⟨c, e⟩ := c3 v
              rw [e]; exact h.marks v
            have hnil : τ₁.blocksFrom N = [] := by
              unfold blocksFrom
              rw [← c1.length, List.drop_length]
              rfl
            refine ⟨⟨Or.inr ⟨Mode.noConfusion, N, c4', hrv⟩, fun v => (hs.1.control v).trans (hfl₁ v),
              fun v => (hs.1.marked v).trans (hmk₁ v)⟩, fun v => ?_⟩
            have hg : ∀ v, saved (fun v => { τ.heap v with ckpt := some (out v) } : Heap V T A) v = out v := fun v => rfl
            have hinv : RInv false out (fun v => { τ.heap v with ckpt := some (out v) }) N τ₁ := by
              refine ⟨by rw [c1.blocks]; exact ssa, by rw [c1.blocks]; exact hst, c1.clean, fun v => ?_, fun v _ => ?_⟩
              · obtain ⟨c, e⟩ := c3 v
                rw [e]
              · rw [hnil]
                obtain ⟨c, e⟩ := c3 v
                rw [e]
                rfl
            have hcl : Cleared N τ₁ := ⟨by rw [c1.blocks]; exact ssa, hfl₁, fun v hv => by
              rw [hnil] at hv
              obtain ⟨b, hb, -⟩ := hv
              cases hb⟩
            have hfin : RInv false out (fun v => { τ.heap v with ckpt := some (out v) }) 0 τ₂ ∧ Cleared 0 τ₂ := by
              unfold reverseSweep at h₂
              rcases cr with ⟨r1, r2, r3⟩ | ⟨r1, r2⟩
              · rw [if_neg (by simp [r1])] at h₂
                exact ⟨firstReverse_inv hg r3 r2 hinv h₂, firstReverse_cleared r3 r2 hcl h₂⟩
              · rw [if_pos r1] at h₂
                exact ⟨processes_inv hg _ r2 hinv h₂, processes_cleared _ r2 hcl h₂⟩
            have hbl : τ₂.blocksFrom 0 = bs := by rw [blocksFrom_zero, hs.1.blocks, c1.blocks]
            show (τ₂.heap v).adj = _
            split
            · rename_i hv
              exact hfin.2.none v (by rw [hbl]; exact hv)
            · rename_i hv
              have := hfin.1.adj v (Or.inr (by rw [hbl]; exact fun b hb ho => hv ⟨b, hb, ho⟩))
              rw [this, hbl]

/-! ## Statement -/

/-- What the user's program may do: evaluations at the control values `out` of the recording and derivatives, of any
functionals with any controls, assignments of adjoint values, resets, and sweeps, in any order. -/
inductive HandCycles [Add A] [Zero A] [Mul V] (truthy : V → Bool) (out : BV → V) :
    CTape V T A → CTape V T A → Prop
  | start (τ) : HandCycles truthy out τ τ
  | call {τ₀ τ τ' : CTape V T A} {J scale y} {cs : List BV} (h : HandCycles truthy out τ₀ τ)
      (hr : rfCall truthy J cs scale (cs.map out) τ = .ok (y, τ')) : HandCycles truthy out τ₀ τ'
  | derivative {τ₀ τ τ' : CTape V T A} {J a ds} {cs : List BV} (h : HandCycles truthy out τ₀ τ)
      (hr : rfDerivative J cs a τ = .ok (ds, τ')) : HandCycles truthy out τ₀ τ'
  | set {τ₀ τ : CTape V T A} (h : HandCycles truthy out τ₀ τ) (v : BV) (a : Option A) :
      HandCycles truthy out τ₀ (τ.setAdj v a)
  | reset {τ₀ τ : CTape V T A} (h : HandCycles truthy out τ₀ τ) : HandCycles truthy out τ₀ τ.resetAdj
  | sweep {τ₀ τ τ' : CTape V T A} {last : Int} (h : HandCycles truthy out τ₀ τ) (hr : sweepByHand last τ = .ok τ') :
      HandCycles truthy out τ₀ τ'

theorem HandCycles.ready [Add A] [Zero A] [Mul V] {out : BV → V} {sch : Schedule} (hwf : sch.WellFormed)
    (hrev : sch.Reverses) {bs : Blocks V T A} (ssa : WF bs) (hst : Stable (fun _ => True) bs out)
    {truthy : V → Bool} {τ τ' : CTape V T A} (hh : HandCycles truthy out τ τ') (h : Ready out sch bs τ) :
    Ready out sch bs τ' := by
  induction hh with
  | start => exact h
  | call _ hr ih => exact rfCall_ready hwf hrev hst ih hr
  | derivative _ hr ih => exact (rfDerivative_ready hwf hrev ssa hst ih hr).1
  | set _ v a ih => exact ih.onHeap (setAdj_frame v a _)
  | reset _ ih => exact ih.onHeap (resetAdj_frame _ _)
  | sweep _ hr ih => exact (sweepByHand_ready hwf hrev ssa hst ih hr).1

/-- The heap that the same recording without checkpointing would have, with the adjoint values of `τ`. -/
def plain (h : Heap V T A) (τ : CTape V T A) : Heap V T A := fun v => { h v with adj := (τ.heap v).adj }

open Classical in
/-- **C84** (partial: at the control values of the recording; `by_hand_spoils_derivative` shows that it fails
otherwise).  For every recording and every well-formed schedule that reverses every step once, after any number of
evaluations at the recorded control values, derivatives, assignments of adjoint values, resets and sweeps by hand:
`tape.evaluate_adj()`, if it does not raise, leaves in each variable that no operation computes exactly the adjoint
value that the same call leaves without checkpointing, and none in the others. -/
theorem by_hand_sweep_partial [Add A] [Zero A] [Mul V] {sch : Schedule} {h : Heap V T A}
    {es : List (Event V T A)} {τ₀ τ τ' : CTape V T A} (hr : Recorded sch h es τ₀) (hrev : sch.Reverses)
    (hf : Faithful h es) {truthy : V → Bool}
    (hh : HandCycles truthy (fun v => (h v).output) τ₀ τ) {last : Int} (hs : sweepByHand last τ = .ok τ') (v : BV) :
    (τ'.heap v).adj = if ∃ b ∈ Event.blocks es, v ∈ b.outs then none
      else (Hand.evaluateAdjFrom (Event.blocks es) 0 (plain h τ) v).adj := by
  have hst : Stable (fun _ => True) (Event.blocks es) (fun v => (h v).output) :=
    fun b hb i o ho _ => ⟨fun _ _ => trivial, hf b hb i o ho⟩
  have hready := hh.ready hr.wellFormed hrev hr.ssa hst hr.ready
  rw [(sweepByHand_ready hr.wellFormed hrev hr.ssa hst hready hs).2 v]
  suffices key : (evaluateAdj (Event.blocks es) false (fun v => { τ.heap v with ckpt := some (h v).output }) v).adj =
      (Hand.evaluateAdjFrom (Event.blocks es) 0 (plain h τ) v).adj by
    rw [key]
  show _ = (evaluateAdj (Event.blocks es) false (plain h τ) v).adj
  refine evaluateAdj_congr_on (bs := Event.blocks es) (m := false)
    (h := fun v => { τ.heap v with ckpt := some (h v).output }) (h' := plain h τ) (S := fun _ => True) (fun b _ => ⟨fun _ _ => trivial, fun _ _ => trivial⟩)
    (fun b _ d _ => ?_) (fun v _ => ?_) (fun v _ => rfl) v trivial
  · unfold saved plain
    rw [(hr.unused d).1]
  · exact (hready.marks v).trans (hr.unused v).2.2.1.symm

/-- **C84** (partial as above).  The documented recipe after `tape.reset_variables()`: the adjoint value it leaves in a
variable that no operation computes is the one it gives on the same recording without checkpointing. -/
theorem by_hand_recipe_partial [Add A] [Zero A] [Mul V] {sch : Schedule} {h : Heap V T A}
    {es : List (Event V T A)} {τ₀ τ τ' : CTape V T A} (hr : Recorded sch h es τ₀) (hrev : sch.Reverses)
    (hf : Faithful h es) {truthy : V → Bool}
    (hh : HandCycles truthy (fun v => (h v).output) τ₀ τ) {J : BV} {w : A} {last : Int}
    (hs : sweepByHand last (τ.resetAdj.setAdj J (some w)) = .ok τ') {v : BV}
    (hv : OnTape (Event.blocks es) v ∨ v = J) (hvo : ∀ b ∈ Event.blocks es, v ∉ b.outs) :
    (τ'.heap v).adj = (Hand.evaluateAdjFrom (Event.blocks es) 0
      (fun u => { h u with adj := if u = J then some w else none }) v).adj := by
  classical
  have hst : Stable (fun _ => True) (Event.blocks es) (fun v => (h v).output) :=
    fun b hb i o ho _ => ⟨fun _ _ => trivial, hf b hb i o ho⟩
  have hbl := (hh.ready hr.wellFormed hrev hr.ssa hst hr.ready).blocks
  rw [by_hand_sweep_partial hr hrev hf (.set (.reset hh) J (some w)) hs v,
    if_neg fun ⟨b, hb, ho⟩ => hvo b hb ho]
  show (evaluateAdj (Event.blocks es) false (plain h ((τ.resetAdj).setAdj J (some w))) v).adj =
    (evaluateAdj (Event.blocks es) false (fun u => { h u with adj := if u = J then some w else none }) v).adj
  refine evaluateAdj_congr_on (bs := Event.blocks es) (m := false)
    (h := plain h ((τ.resetAdj).setAdj J (some w)))
    (h' := fun u => { h u with adj := if u = J then some w else none }) (S := fun v => OnTape (Event.blocks es) v ∨ v = J)
    (fun b hb => ⟨fun d hd => Or.inl ⟨b, hb, Or.inl hd⟩, fun o ho => Or.inl ⟨b, hb, Or.inr ho⟩⟩)
    (fun b _ d _ => rfl) (fun v _ => rfl) (fun u hu => ?_) v hv
  show (Function.update (resetVariables τ.blocks .adjoint τ.heap) J _ u).adj = if u = J then some w else none
  by_cases hJ : u = J
  · subst hJ
    rw [Function.update_self, if_pos rfl]
  · rw [Function.update_of_ne hJ, if_neg hJ, resetVariables_apply, hbl, if_pos (hu.resolve_right hJ)]
    rfl

/-- **C84**.  Derivatives of reduced functionals are not disturbed by what was done by hand, as long as every
evaluation uses the control values of the recording. -/
theorem derivative_after_by_hand_partial [Add A] [Zero A] [Mul V] {sch : Schedule} {h : Heap V T A}
    {es : List (Event V T A)} {τ₀ τ τ' : CTape V T A} (hr : Recorded sch h es τ₀) (hrev : sch.Reverses)
    (hf : Faithful h es) {truthy : V → Bool}
    (hh : HandCycles truthy (fun v => (h v).output) τ₀ τ) {J : BV} {cs : List BV}
    (hcs : ∀ c ∈ cs, OnTape (Event.blocks es) c ∨ c = J) {a : A} {ds : List A}
    (hd : rfDerivative J cs a τ = .ok (ds, τ')) :
    ds = (computeGradient (Event.blocks es) J cs a h).1 := by
  have hst : Stable (fun _ => True) (Event.blocks es) (fun v => (h v).output) :=
    fun b hb i o ho _ => ⟨fun _ _ => trivial, hf b hb i o ho⟩
  refine (rfDerivative_ready hr.wellFormed hrev hr.ssa hst (hh.ready hr.wellFormed hrev hr.ssa hst hr.ready) hd).2 h
    (fun v => ?_) (fun v => (hr.unused v).2.2.1) hcs
  unfold saved
  rw [(hr.unused v).1]

/-- **C84**.  A sweep of part of the tape is refused, whatever the state of the tape. -/
theorem by_hand_last_block [Add A] {τ : CTape V T A} {last : Int} (h : last ≠ 0) :
    sweepByHand last τ = .error .notImplemented := if_pos h

/-- **C84**.  Sweeping twice without an evaluation in between raises. -/
theorem by_hand_twice [Add A] {τ τ' : CTape V T A} {last : Int} (hs : sweepByHand last τ = .ok τ')
    (v : BV) (a : Option A) :
    sweepByHand 0 (τ'.setAdj v a) = .error (.checkpoint .evaluateFirst) := by
  unfold sweepByHand at hs
  split at hs
  · cases hs
  · cases h₃ : τ.evaluateAdjTape false with
    | error e => rw [h₃] at hs; cases hs
    | ok τ₃ =>
      rw [h₃] at hs
      cases hs
      have hm : τ'.mgr.mode = .evaluateAdjoint := by
        unfold evaluateAdjTape at h₃
        split at h₃
        · cases h₃
        · split at h₃
          · cases h₃
          · split at h₃
            · cases h₃
            · cases h₃; rfl
      have hm' : (τ'.setAdj v a).mgr.mode = .evaluateAdjoint := hm
      unfold sweepByHand
      rw [if_neg (by decide)]
      have : (τ'.setAdj v a).evaluateAdjTape false = .error .evaluateFirst := by
        unfold evaluateAdjTape finishTaping
        rw [if_neg (by rw [hm']; exact Mode.noConfusion)]
        dsimp only
        rw [if_pos (by unfold canReverse; rw [hm']; decide)]
      rw [this]

/-! ### Witnesses -/

/-- `y = x * x`, a step, `J = y * x`, a step. -/
def handCube : List (Event Int Int Int) :=
  [.block (mulBlk 0 0 1), .endTimestep, .block (mulBlk 1 0 2), .endTimestep]

/-- Recorded at `x = 2` with a schedule that stores the adjoint dependencies of both steps on disk. -/
def cubeTape : CTape Int Int Int := tapeOf emptyTape (record singleDisk2 (freshHeap [2, 4, 8]) handCube)

/-- The recipe: `J.block_variable.adj_value = 1; tape.evaluate_adj()`. -/
def byHand (τ : CTape Int Int Int) : Except HandError (CTape Int Int Int) := sweepByHand 0 (τ.setAdj 2 (some 1))

/-- The state after a sweep. -/
def afterH : Except HandError (CTape Int Int Int) → CTape Int Int Int
  | .error _ => emptyTape
  | .ok τ => τ

/-- Whether a sweep succeeded. -/
def sweepOk : Except HandError (CTape Int Int Int) → Bool
  | .error _ => false
  | .ok _ => true

theorem afterH_ok {r : Except HandError (CTape Int Int Int)} (h : sweepOk r = true) : r = .ok (afterH r) := by
  cases r with
  | error e => cases h
  | ok r => rfl

theorem handCube_wf : WF (Event.blocks handCube) := by
  refine ⟨?_, ?_, ?_⟩ <;> simp [handCube, Event.blocks, mulBlk]

theorem handCube_faithful : Faithful (freshHeap [2, 4, 8] : Heap Int Int Int) handCube := by
  intro b hb i o ho y hy
  simp only [handCube, Event.blocks, List.mem_cons, List.not_mem_nil, or_false] at hb
  rcases hb with rfl | rfl <;>
  · cases i with
    | zero => simp [mulBlk] at ho; subst ho; cases hy; rfl
    | succ i => simp [mulBlk] at ho

/-- `by_hand_sweep_partial` and `by_hand_recipe_partial` apply: after the recipe, an evaluation at the recorded value, a
reset and the recipe again, the adjoint value of `x` is `3 x² = 12`. -/
example : ((afterH (byHand (afterC (callAt2 2 (afterH (byHand cubeTape)))).resetAdj)).heap 0).adj = some 12 := by
  have hr := recorded_of (out := [2, 4, 8]) singleDisk2_wellFormed handCube_wf (by decide +kernel)
  have h₁ := afterH_ok (r := byHand cubeTape) (by decide +kernel)
  obtain ⟨y, h₂⟩ := afterC_ok (r := callAt2 2 (afterH (byHand cubeTape))) (by decide +kernel)
  have h₃ := afterH_ok (r := byHand (afterC (callAt2 2 (afterH (byHand cubeTape)))).resetAdj) (by decide +kernel)
  change Recorded _ _ _ cubeTape at hr
  revert h₁ h₂ h₃ hr
  generalize afterH (byHand (afterC (callAt2 2 (afterH (byHand cubeTape)))).resetAdj) = τ₃
  generalize afterC (callAt2 2 (afterH (byHand cubeTape))) = τ₂
  generalize afterH (byHand cubeTape) = τ₁
  generalize cubeTape = τ₀
  intro h₁ h₂ h₃ hr
  have hh : HandCycles (fun x => x != 0) (fun v => (freshHeap [2, 4, 8] v).output) τ₀ τ₂ :=
    .call (.sweep (.set (.start _) 2 (some 1)) h₁) h₂
  have := by_hand_recipe_partial hr singleDisk2_reverses handCube_faithful hh h₃ (v := 0)
    (Or.inl ⟨mulBlk 0 0 1, by simp [handCube, Event.blocks], Or.inl (by simp [mulBlk])⟩)
    (by simp [handCube, Event.blocks, mulBlk])
  rw [this]
  decide +kernel

/-- **C84** refuted without the restriction: if the first sweep of a checkpointed tape is one by hand, an evaluation of
`J` at a new value and `derivative()` silently give a wrong derivative.  Without the sweep the derivative of `x³` at `3` is
`27`, with it `22`.  (The sweep takes every variable for irrelevant and removes it from the adjoint dependencies of its
step.) -/
theorem by_hand_spoils_derivative :
    sweepOk (byHand cubeTape) = true ∧ ((afterH (byHand cubeTape)).heap 0).adj = some 12 ∧
    callThenDerivative 2 3 cubeTape = some (27, [27]) ∧
    callThenDerivative 2 3 (afterH (byHand cubeTape)) = some (27, [22]) := by
  decide +kernel

/-- The evaluation at `3`. -/
def callAt3 (τ : CTape Int Int Int) : CTape Int Int Int := afterC (rfCall (fun x => x != 0) 2 [0] 1 [3] τ)

/-- **C84**.  The recipe itself goes wrong as well when it is used a second time: `27` at `x = 3` if it is the first
sweep, `12`, the derivative at the recorded value `2`, after an earlier sweep by hand.  (Even the new value of `x` is
overwritten by the stored one, since `x` is not marked as a control.) -/
theorem by_hand_again_wrong :
    ((afterH (byHand (callAt3 cubeTape))).heap 0).adj = some 27 ∧
    ((afterH (byHand (callAt3 (afterH (byHand cubeTape))).resetAdj)).heap 0).adj = some 12 := by
  decide +kernel

/-- **C84**.  The adjoint value of a computed variable is lost with checkpointing (`none` for `y`), while without it is
there (`x = 2`). -/
theorem by_hand_intermediate_lost :
    ((afterH (byHand cubeTape)).heap 1).adj = none ∧
    (Hand.evaluateAdjFrom (Event.blocks handCube) 0
      (plain (freshHeap [2, 4, 8]) (cubeTape.setAdj 2 (some 1))) 1).adj = some 2 := by
  decide +kernel

end CTape
end Pyadjoint
