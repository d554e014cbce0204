import Verif.Proofs.CkptAffine
import Verif.Props.CheckpointExact

/-!
# C26: derivatives at new control values under every schedule, for programs affine in the controls

After an evaluation at new control values, the standard schedules leave values of the recording where the adjoints read them
(`multistage_gradient_stale`), so that derivatives are wrong in general.  They are right, whatever the schedule and the history, if no adjoint reads a value that
depends on the controls: programs that are affine in the controls, such as linear time stepping with coefficients and forcings that are not controls
(`affine_gradient_partial`, `affine_gradient_exact_partial`).
-/

namespace Pyadjoint
namespace CTape

variable {V T A : Type*}

/-- Evaluations at any values of any of the controls `cs`, and derivatives with respect to any controls, of any functionals and in any order. -/
inductive ControlUses [Add A] [Zero A] [Mul V] (truthy : V → Bool) (cs : List BV) : CTape V T A → CTape V T A → Prop
  | start (τ) : ControlUses truthy cs τ τ
  | call {τ₀ τ τ' : CTape V T A} {J scale y} {ds : List BV} {xs : List V} (h : ControlUses truthy cs τ₀ τ) (hds : ∀ d ∈ ds, d ∈ cs)
      (hr : rfCall truthy J ds scale xs τ = .ok (y, τ')) : ControlUses truthy cs τ₀ τ'
  | derivative {τ₀ τ τ' : CTape V T A} {J a gs} {ds : List BV} (h : ControlUses truthy cs τ₀ τ)
      (hr : rfDerivative J ds a τ = .ok (gs, τ')) : ControlUses truthy cs τ₀ τ'

theorem ControlUses.kept [Add A] [Zero A] [Mul V] {out : BV → V} {sch : Schedule} (hwf : sch.WellFormed) (hrev : sch.Reverses)
    {bs : Blocks V T A} (ssa : WF bs) {cs : List BV} (hst : Stable (Indep bs cs) bs out) {truthy : V → Bool} {τ τ' : CTape V T A}
    (hh : ControlUses truthy cs τ τ') (h : Kept (Indep bs cs) out sch bs τ) : Kept (Indep bs cs) out sch bs τ' := by
  induction hh with
  | start => exact h
  | call _ hds hr ih => exact rfCall_kept hwf hrev hst (fun v hv hd => hv (.base (hds v hd))) ih hr
  | derivative _ hr ih => exact (rfDerivative_kept hwf hrev ssa hst ih hr).1

theorem History.uses [Add A] [Zero A] [Mul V] {truthy : V → Bool} {cs : List BV} {τ τ' : CTape V T A} (hh : History truthy cs τ τ') :
    ControlUses truthy cs τ τ' := by
  induction hh with
  | start => exact .start _
  | call _ hr ih => exact ih.call (fun _ h => h) hr
  | derivative _ hr ih => exact ih.derivative hr

theorem reach_mono {bs : Blocks V T A} {P Q : BV → Prop} (h : ∀ v, P v → Q v) {v : BV} (hr : Reach bs P v) : Reach bs Q v := by
  induction hr with
  | base hv => exact .base (h _ hv)
  | step hb hd _ ho ih => exact .step hb hd ih ho

/-- **C26 for affine programs** (partial: the adjoints read no value that depends on the controls; see `multistage_gradient_stale` for the others).  For every
recording and every well-formed schedule that reverses every step once, after any evaluations at any values of the controls and any derivatives: a derivative
with respect to any of the controls that is computed is the one that the program recorded without checkpointing gives at any control values `xs`, in particular at those of the last evaluation. -/
theorem affine_gradient_partial [Add A] [Zero A] [Mul V] {sch : Schedule} {h : Heap V T A} {es : List (Event V T A)} {τ₀ τ : CTape V T A}
    (hr : Recorded sch h es τ₀) (hrev : sch.Reverses)
    (hfaithful : ∀ b ∈ Event.blocks es, ∀ (i : Nat) (o : BV), b.outs[i]? = some o →
      ∀ y, b.recomputeC (b.deps.map fun d => (h d).output) i = some y → y = (h o).output)
    (htotal : ∀ b ∈ Event.blocks es, ∀ ys (i : Nat), ys.length = b.deps.length → i < b.outs.length → (b.recomputeC ys i).isSome)
    {truthy : V → Bool} {cs : List BV} (hcs : cs.Nodup) (hinputs : ∀ c ∈ cs, ∀ b ∈ Event.blocks es, c ∉ b.outs)
    (haffine : ∀ b ∈ Event.blocks es, AdjReads (Indep (Event.blocks es) cs) b)
    (hh : ControlUses truthy cs τ₀ τ) {J : BV} {ds : List BV} (hds : ∀ d ∈ ds, d ∈ cs) (hon : ∀ d ∈ ds, OnTape (Event.blocks es) d ∨ d = J)
    {a : A} {gs : List A} {τ' : CTape V T A} (hd : rfDerivative J ds a τ = .ok (gs, τ')) {xs : List V} (hlen : xs.length = cs.length) :
    gs = (computeGradient (Event.blocks es) J ds a (rfEval (Event.blocks es) cs xs h)).1 := by
  have hst : Stable (Indep (Event.blocks es) cs) (Event.blocks es) (fun v => (h v).output) := stable_indep (fun _ h => h) hfaithful
  have hal := hr.alive (Indep (Event.blocks es) cs)
  have hkept : Kept (Indep (Event.blocks es) cs) (fun v => (h v).output) sch (Event.blocks es) τ₀ := by
    obtain ⟨gc, pk, eager, τ₁, hgc, h1, h2⟩ := hr.recorded
    have hf : Fresh (Indep (Event.blocks es) cs) (fun v => (h v).output) h :=
      ⟨fun _ => rfl, fun v _ c hc => (by rw [(hr.unused v).1] at hc; cases hc),
        fun v => (hr.unused v).2.2.2.1, fun v => (hr.unused v).2.2.2.2⟩
    have ht := (taped_enable hf hgc h1).recording es (show WF ([] ++ Event.blocks es) from hr.ssa) h2
    rw [List.nil_append] at ht
    exact ⟨Or.inl ht, hal.flags, fun v => (hr.same v).2.2.1.trans (hr.unused v).2.2.1⟩
  have hrun := rfEval_isRun hr.ssa (fun v => ⟨(hr.unused v).1, (hr.unused v).2.1⟩) hcs hinputs htotal hlen
  refine (rfDerivative_kept hr.wellFormed hrev hr.ssa hst (hh.kept hr.wellFormed hrev hr.ssa hst hkept) hd).2 _ haffine
    (fun v hv hi => hi (reach_mono hds (findRelevantNodes_sound _ _ v hv))) (IsRun.indep hr.ssa hfaithful hrun) (fun v => ?_) hon
  obtain ⟨c, e⟩ := rfEval_frame (Event.blocks es) cs xs h v fun c _ => (hr.unused c).2.1
  rw [e]; exact (hr.unused v).2.2.1

/-- The operation is affine in the values outside of `P`. -/
def _root_.Pyadjoint.FBlock.Affine (P : BV → Prop) : FBlock → Prop
  | .un .neg _ _ | .bin .add _ _ _ | .bin .sub _ _ _ => True
  | .un _ a _ => P a
  | .bin .mul a b _ => P a ∨ P b
  | .bin .div _ b _ => P b
  | .bin _ a b _ => P a ∧ P b

theorem adjReads_float {P : BV → Prop} {f : FBlock} (hf : f.Affine P) : AdjReads P f.toBlock := by
  intro x y hxy as i d hi hd
  cases f with
  | un op a o =>
    have hi' : [a][i]? = some d := hi
    rcases i with - | i
    · cases hi'
      cases op with
      | neg => rfl
      | exp => exact absurd hf hd
      | log => exact absurd hf hd
    · simp at hi'
  | bin op a b o =>
    have hi' : [a, b][i]? = some d := hi
    have ha : P a → x a = y a := hxy a (by simp [FBlock.toBlock])
    have hb : P b → x b = y b := hxy b (by simp [FBlock.toBlock])
    have goal : ∀ l : ℝ, op.adjC (x a) (x b) l i = op.adjC (y a) (y b) l i := by
      intro l
      rcases i with - | - | i
      · cases hi'
        cases op with
        | add => rfl
        | sub => rfl
        | mul => simp [BOp.adjC, hb (hf.resolve_left hd)]
        | div => simp [BOp.adjC, hb hf]
        | pow => exact absurd hf.1 hd
        | min => exact absurd hf.1 hd
        | max => exact absurd hf.1 hd
      · cases hi'
        cases op with
        | add => rfl
        | sub => rfl
        | mul => simp [BOp.adjC, ha (hf.resolve_right hd)]
        | div => exact absurd hf hd
        | pow => exact absurd hf.2 hd
        | min => exact absurd hf.2 hd
        | max => exact absurd hf.2 hd
      · simp at hi'
    show ((as[0]?).join.bind fun l => some (op.adjC (x a) (x b) l i)) = ((as[0]?).join.bind fun l => some (op.adjC (y a) (y b) l i))
    simp only [goal]

/-- **C26 and C02 for affine programs** (partial: as `affine_gradient_partial`, and a functional recorded with a true value).  For every recorded `AdjFloat` program that is
affine in the controls and every well-formed schedule that reverses every step once, after any history of evaluations and derivatives: `rf(x)` is a function
`value` of `x`, and the next `rf.derivative(adj_input)` that returns, whether an evaluation at the point precedes it or not, gives the Fréchet derivative of `adj_input · value`, at every point
where the operations that depend on a control are differentiable (no division by zero). -/
theorem affine_gradient_exact_partial {sch : Schedule} {h : FHeap} {es : List (Event ℝ ℝ ℝ)} {t : FTape}
    (ht : Event.blocks es = t.blocks) {τ₀ τ : CTape ℝ ℝ ℝ} (hr : Recorded sch h es τ₀) (hrev : sch.Reverses) (hf : Faithful h es)
    {truthy : ℝ → Bool} {cs : List BV} (hcs : cs.Nodup) (hinputs : ∀ c ∈ cs, ∀ b ∈ t.blocks, c ∉ b.outs)
    (hon : ∀ c ∈ cs, OnTape t.blocks c) (haffine : ∀ b ∈ t, b.Affine (Indep t.blocks cs))
    (hh : History truthy cs τ₀ τ) (hmode : τ.mgr.mode ≠ .record)
    {J : BV} (htruthy : truthy (h J).output = true) (scale adjInput : ℝ) {gs : List ℝ} {τ' : CTape ℝ ℝ ℝ}
    (hd : rfDerivative J cs (adjInput * scale) τ = .ok (gs, τ')) :
    ∃ value : (Fin cs.length → ℝ) → ℝ, (∀ x, ∃ τ', rfCall truthy J cs scale (List.ofFn x) τ = .ok (value x, τ')) ∧
      ∀ x₀ : Fin cs.length → ℝ,
        (∀ b ∈ t, (∃ d ∈ b.deps, Reach t.blocks (· ∈ cs) d) → b.Smooth (saved (rfEval t.blocks cs (List.ofFn x₀) h)) (Reach t.blocks (· ∈ cs))) →
        ∃ grad : Fin cs.length → ℝ, gs = List.ofFn grad ∧
          HasFDerivAt (fun x => adjInput * value x) (∑ i, grad i • (ContinuousLinearMap.proj i : (Fin cs.length → ℝ) →L[ℝ] ℝ)) x₀ := by
  have hfl : ∀ v, (h v).isControl = false := fun v => (hr.unused v).2.1
  have wf : WF t.blocks := ht ▸ hr.ssa
  have hin' : ∀ c ∈ cs, ∀ b ∈ Event.blocks es, c ∉ b.outs := by rw [ht]; exact hinputs
  have htot : ∀ b ∈ Event.blocks es, ∀ ys (i : Nat), ys.length = b.deps.length → i < b.outs.length → (b.recomputeC ys i).isSome := by
    rw [ht]; exact float_total t
  refine ⟨fun x => saved (rfEval t.blocks cs (List.ofFn x) h) J * scale, fun x => ?_, fun x₀ hsmooth => ?_⟩
  · have := checkpointed_value_as_without_partial hr hh hmode hcs hin' htot htruthy scale (xs := List.ofFn x) (by simp)
    rw [ht] at this
    exact this
  · obtain ⟨grad, hg, hfd⟩ := gradient_exact_adjfloat t wf J cs hcs h hfl (fun c hc b hb ho => absurd ho (hinputs c hc b hb)) scale adjInput x₀
      hsmooth (fun c hc => Or.inl (hon c hc)) _ _ (show Pyadjoint.rfCall t.blocks J cs scale (List.ofFn x₀) h = _ by
        unfold Pyadjoint.rfCall; rw [if_neg (by simp)])
    refine ⟨grad, ?_, hfd.congr_of_eventuallyEq (Filter.Eventually.of_forall fun x => ?_)⟩
    · have := affine_gradient_partial hr hrev hf htot hcs hin' (by
          rw [ht]
          intro b hb
          obtain ⟨f, hf, rfl⟩ := List.mem_map.1 hb
          exact adjReads_float (haffine f hf)) hh.uses (fun _ h => h) (by rw [ht]; exact fun c hc => Or.inl (hon c hc)) hd
          (xs := List.ofFn x₀) (by simp)
      rw [this, ht]
      exact hg
    · simp only [rfValue_eq]

/-! ## Non-vacuity -/

/-- `v₂ := v₁ * v₀` in the first time step, `v₃ := v₁ * v₂; v₄ := v₃ + v₀` in the second: affine in `v₀`, with the coefficient `v₁`. -/
noncomputable def exAffine : FTape := [.bin .mul 1 0 2, .bin .mul 1 2 3, .bin .add 3 0 4]

noncomputable def exAffineEvents : List (Event ℝ ℝ ℝ) :=
  [.block (FBlock.bin .mul 1 0 2).toBlock, .endTimestep, .block (FBlock.bin .mul 1 2 3).toBlock, .block (FBlock.bin .add 3 0 4).toBlock, .endTimestep]

noncomputable def exAffineHeap : FHeap := fun v =>
  { output := if v = 0 then 2 else if v = 1 then 3 else if v = 2 then 3 * 2 else if v = 3 then 3 * (3 * 2) else if v = 4 then 3 * (3 * 2) + 2 else 0 }

/-- Recorded under the multistage schedule, for which `multistage_gradient_stale` shows wrong derivatives. -/
noncomputable def exAffineTape : CTape ℝ ℝ ℝ := tapeOf emptyFloatTape (record multistage2 exAffineHeap exAffineEvents)

theorem exAffine_mem {b : Block ℝ ℝ ℝ} (hb : b ∈ exAffine.blocks) :
    b = (FBlock.bin .mul 1 0 2).toBlock ∨ b = (FBlock.bin .mul 1 2 3).toBlock ∨ b = (FBlock.bin .add 3 0 4).toBlock := by
  simpa only [FTape.blocks, exAffine, List.map_cons, List.map_nil, List.mem_cons, List.not_mem_nil, or_false] using hb

theorem exAffine_wf : WF exAffine.blocks := by
  refine ⟨?_, ?_, ?_⟩
  · intro b hb
    rcases exAffine_mem hb with rfl | rfl | rfl <;> simp [FBlock.toBlock]
  · intro b hb
    rcases exAffine_mem hb with rfl | rfl | rfl <;> simp [FBlock.toBlock]
  · simp [FTape.blocks, exAffine, FBlock.toBlock]

theorem exAffine_recorded : Recorded multistage2 exAffineHeap exAffineEvents exAffineTape := by
  refine ⟨multistage2_wellFormed, fun v => ⟨rfl, rfl, rfl, rfl, rfl⟩, exAffine_wf, none, true, false, ?_⟩
  have h := tapeOf_spec (d := emptyFloatTape) (r := record multistage2 exAffineHeap exAffineEvents) (by decide +kernel)
  unfold exAffineTape
  generalize tapeOf emptyFloatTape _ = τ at h
  unfold record at h
  split at h
  · cases h
  · rename_i τ₀ h₀
    exact ⟨τ₀, by decide, h₀, h⟩

theorem exAffine_faithful : Faithful exAffineHeap exAffineEvents := by
  intro b hb i o ho y hy
  have hb' : b ∈ exAffine.blocks := hb
  rcases exAffine_mem hb' with rfl | rfl | rfl
  · have ho' : [2][i]? = some o := ho
    rcases i with - | i
    · cases ho'; cases hy; simp [exAffineHeap, BOp.val]
    · simp at ho'
  · have ho' : [3][i]? = some o := ho
    rcases i with - | i
    · cases ho'; cases hy; simp [exAffineHeap, BOp.val]
    · simp at ho'
  · have ho' : [4][i]? = some o := ho
    rcases i with - | i
    · cases ho'; cases hy; simp [exAffineHeap, BOp.val]
    · simp at ho'

theorem exAffine_affine : ∀ b ∈ exAffine, b.Affine (Indep exAffine.blocks [0]) := by
  have h1 : Indep exAffine.blocks [0] 1 := by
    refine (indep_of_leaf (fun b hb => ?_)).resolve_left (by simp)
    rcases exAffine_mem hb with rfl | rfl | rfl <;> simp [FBlock.toBlock]
  intro b hb
  simp only [exAffine, List.mem_cons, List.not_mem_nil, or_false] at hb
  rcases hb with rfl | rfl | rfl
  · exact Or.inl h1
  · exact Or.inl h1
  · trivial

/-- The tape after a derivative and an evaluation at `7`. -/
noncomputable def exAffineUsed : CTape ℝ ℝ ℝ :=
  match rfDerivative 4 [0] 1 exAffineTape with
  | .error _ => emptyFloatTape
  | .ok (_, τ) =>
    match rfCall (fun _ => true) 4 [0] 1 [7] τ with
    | .error _ => emptyFloatTape
    | .ok (_, τ) => τ

/-- Whether a derivative was computed. -/
def computed : Except CkptError (List ℝ × CTape ℝ ℝ ℝ) → Bool
  | .error _ => false
  | .ok _ => true

theorem exAffine_used : History (fun _ => true) [0] exAffineTape exAffineUsed := by
  have h1 : computed (rfDerivative 4 [0] 1 exAffineTape) = true := by decide +kernel
  unfold exAffineUsed
  split
  · rename_i e he
    rw [he] at h1; cases h1
  · rename_i gs τ hτ
    split
    · rename_i e he
      have hh : History (fun _ => true) [0] exAffineTape τ := (History.start _).derivative hτ
      obtain ⟨τ', h2⟩ := checkpointed_value_as_without_partial exAffine_recorded hh (by
          have h3 : (match rfDerivative 4 [0] 1 exAffineTape with | .error _ => false | .ok (_, τ) => decide (τ.mgr.mode ≠ .record)) = true := by
            decide +kernel
          rw [hτ] at h3
          simpa using h3) (by simp) (by
          intro c hc b hb
          rcases exAffine_mem hb with rfl | rfl | rfl <;> simp_all [FBlock.toBlock]) (float_total exAffine) (J := 4) rfl 1 (xs := [7]) rfl
      rw [he] at h2
      cases h2
    · rename_i y τ' hc
      exact ((History.start _).derivative hτ).call hc

/-- `affine_gradient_partial` and `affine_gradient_exact_partial` apply to this tape, at every point: `J = 9x + x`. -/
example : ∃ gs τ', rfDerivative 4 [0] (1 * 1) exAffineUsed = .ok (gs, τ') ∧
    ∃ value : (Fin 1 → ℝ) → ℝ, (∀ x, ∃ τ', rfCall (fun _ => true) 4 [0] 1 (List.ofFn x) exAffineUsed = .ok (value x, τ')) ∧
      ∀ x₀ : Fin 1 → ℝ, ∃ grad : Fin 1 → ℝ, gs = List.ofFn grad ∧
        HasFDerivAt (fun x => 1 * value x) (∑ i, grad i • (ContinuousLinearMap.proj i : (Fin 1 → ℝ) →L[ℝ] ℝ)) x₀ := by
  have h1 : computed (rfDerivative 4 [0] (1 * 1) exAffineUsed) = true := by decide +kernel
  cases hd : rfDerivative 4 [0] (1 * 1) exAffineUsed with
  | error e => rw [hd] at h1; cases h1
  | ok r =>
    obtain ⟨gs, τ'⟩ := r
    refine ⟨gs, τ', rfl, ?_⟩
    obtain ⟨value, h2, h3⟩ := affine_gradient_exact_partial (t := exAffine) rfl exAffine_recorded multistage2_reverses exAffine_faithful (cs := [0]) (by simp)
      (by
        intro c hc b hb
        rcases exAffine_mem hb with rfl | rfl | rfl <;> simp_all [FBlock.toBlock])
      (by
        intro c hc
        rw [List.mem_singleton.1 hc]
        exact ⟨_, List.mem_cons_self .., Or.inl (by simp [FBlock.toBlock])⟩) exAffine_affine exAffine_used (by decide +kernel) (J := 4) rfl 1 1 hd
    refine ⟨value, h2, fun x₀ => h3 x₀ ?_⟩
    intro b hb _
    simp only [exAffine, List.mem_cons, List.not_mem_nil, or_false] at hb
    rcases hb with rfl | rfl | rfl <;> trivial

end CTape
end Pyadjoint
