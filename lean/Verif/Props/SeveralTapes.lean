import Verif.Props.History
import Mathlib.Tactic.NormNum
import Mathlib.Analysis.Calculus.Deriv.Mul

/-!
# Reduced functionals that share variables: several tapes, several functionals (C70)

A block variable belongs to the object it describes, not to a tape: after `set_working_tape` (tape.py:56-69, `Verif.Model.Api`) operations that read the
same `AdjFloat` put the same variable on several tapes (overloaded_type.py:135-155, block.py:111-120).  `Tape` (tape.py:116-1075) holds only blocks,
so evaluating a functional on one tape writes the `checkpoint`s of variables that other tapes read (reduced_functional.py:267-313).
-/

namespace Pyadjoint

/-! ## Specification: calls on any tapes -/

/-- A call through a reduced functional: its tape, its controls and the call. -/
structure TapeUse where
  tape : FTape
  controls : List BV
  call : TapeCall

/-- Whether the call evaluates the functional (also when the evaluation raises). -/
def TapeCall.evaluates : TapeCall → Prop
  | .eval _ => True
  | .crash _ _ _ => True
  | .derivative _ _ _ => False
  | .hessian _ _ _ => False

/-- Any number of calls on any tapes; they share the variables. -/
noncomputable def runUses (l : List TapeUse) (h : FHeap) : Except FBlock.PyErr FHeap :=
  l.foldlM (fun h u => u.call.step u.tape u.controls h) h

/-- `v` is read on the tape `t` but neither computed there nor given by the controls. -/
def FTape.Constant (t : FTape) (cs : List BV) (v : BV) : Prop := OnTape t.blocks v ∧ v ∉ cs ∧ ∀ b ∈ t, b.out ≠ v

/-- `v` is computed on the tape `t` or given by the controls. -/
def FTape.Writes (t : FTape) (cs : List BV) (v : BV) : Prop := v ∈ cs ∨ ∃ b ∈ t, b.out = v

/-! ## Proof -/

theorem FTape.mem_blocks_outs {t : FTape} {b : Block ℝ ℝ ℝ} (hb : b ∈ t.blocks) : ∃ fb ∈ t, b.outs = [fb.out] := by
  obtain ⟨fb, h, rfl⟩ := List.mem_map.1 hb
  exact ⟨fb, h, by cases fb <;> rfl⟩

theorem FTape.constant_of_kept {t : FTape} {cs : List BV} {v : BV} (ho : OnTape t.blocks v) (hk : Kept t.blocks cs v) : t.Constant cs v := by
  refine ⟨ho, hk.1, fun fb hfb e => ?_⟩
  have hb : fb.toBlock ∈ t.blocks := List.mem_map.2 ⟨fb, hfb, rfl⟩
  have hout : v ∈ fb.toBlock.outs := by cases fb <;> (cases e; exact List.mem_singleton.2 rfl)
  rcases hk.2 with h | ⟨b, hb', hv, o, ho', hc⟩
  · exact h _ hb hout
  · obtain ⟨fb', -, e'⟩ := FTape.mem_blocks_outs hb'
    rw [e'] at hv ho'
    exact hk.1 (by rw [List.mem_singleton.1 hv, ← List.mem_singleton.1 ho']; exact hc)

theorem FTape.kept_of_not_writes {t : FTape} {cs : List BV} {v : BV} (hw : ¬ t.Writes cs v) : Kept t.blocks cs v := by
  refine ⟨fun h => hw (Or.inl h), Or.inl fun b hb hv => ?_⟩
  obtain ⟨fb, hfb, e⟩ := FTape.mem_blocks_outs hb
  rw [e] at hv
  exact hw (Or.inr ⟨fb, hfb, (List.mem_singleton.1 hv).symm⟩)

/-- The values after `rf(x)` on the tape depend on the state before only through the constants of the tape. -/
theorem evaluation_of_constants (t : FTape) (wf : WF t.blocks) (cs : List BV) (hnd : cs.Nodup) (xs : List ℝ) (hlen : xs.length = cs.length)
    (h₁ h₂ : FHeap) (hf₁ : ∀ v, (h₁ v).isControl = false) (hf₂ : ∀ v, (h₂ v).isControl = false)
    (ho : ∀ v, (h₁ v).output = (h₂ v).output) (hk : ∀ v, t.Constant cs v → (h₁ v).ckpt = (h₂ v).ckpt) (v : BV) (hv : OnTape t.blocks v) :
    saved (rfEval t.blocks cs xs h₁) v = saved (rfEval t.blocks cs xs h₂) v := by
  classical
  -- the second heap with the values of the first one off the tape
  let h₃ : FHeap := fun w => { h₂ w with ckpt := if OnTape t.blocks w then (h₂ w).ckpt else (h₁ w).ckpt }
  have e₁ := evaluation_history_independent wf cs hnd xs hlen t.total h₁ h₃ hf₁ (fun w => hf₂ w) (fun w => ho w)
    (fun w hw => by
      show _ = if OnTape t.blocks w then (h₂ w).ckpt else (h₁ w).ckpt
      by_cases hon : OnTape t.blocks w
      · rw [if_pos hon]; exact hk w (FTape.constant_of_kept hon hw)
      · rw [if_neg hon]) v
  rw [e₁]
  have key : ∀ w, OnTape t.blocks w → saved (rfEval t.blocks cs xs h₃) w = saved (rfEval t.blocks cs xs h₂) w := by
    apply tape_induction wf (P := fun w => OnTape t.blocks w → saved (rfEval t.blocks cs xs h₃) w = saved (rfEval t.blocks cs xs h₂) w)
    · intro w hl hon
      by_cases hc : w ∈ cs
      · obtain ⟨i, hi, rfl⟩ := List.mem_iff_getElem.1 hc
        unfold saved
        rw [rfEval_control t.blocks cs xs h₃ hnd hlen (fun c _ => hf₂ c) i hi, rfEval_control t.blocks cs xs h₂ hnd hlen (fun c _ => hf₂ c) i hi]
      · rw [saved, saved, rfEval_leaf t.blocks cs xs h₃ w hc hl, rfEval_leaf t.blocks cs xs h₂ w hc hl]
        simp only [h₃, if_pos hon]
    · intro b hb ih o hob hon
      by_cases hc : o ∈ cs
      · obtain ⟨i, hi, rfl⟩ := List.mem_iff_getElem.1 hc
        unfold saved
        rw [rfEval_control t.blocks cs xs h₃ hnd hlen (fun c _ => hf₂ c) i hi, rfEval_control t.blocks cs xs h₂ hnd hlen (fun c _ => hf₂ c) i hi]
      · obtain ⟨i, hi, rfl⟩ := List.mem_iff_getElem.1 hob
        obtain ⟨fb, -, eo⟩ := FTape.mem_blocks_outs hb
        have hno : ∀ o ∈ b.outs, o ∉ cs := by
          intro o' ho'
          have h2 : b.outs[i] ∈ b.outs := List.getElem_mem _
          generalize b.outs[i] = w at hc h2
          rw [eo] at ho' h2
          rw [List.mem_singleton.1 ho', ← List.mem_singleton.1 h2]; exact hc
        have e1 := rfEval_block wf cs xs h₃ (fun w => hf₂ w) b hb hno i hi
        have e2 := rfEval_block wf cs xs h₂ hf₂ b hb hno i hi
        rw [List.map_congr_left fun d hd => ih d hd ⟨b, hb, Or.inl hd⟩] at e1
        have ht := t.total b hb (b.deps.map (saved (rfEval t.blocks cs xs h₂))) i (by simp) hi
        revert e1 e2
        cases hr : b.recomputeC (b.deps.map (saved (rfEval t.blocks cs xs h₂))) i with
        | none => rw [hr] at ht; cases ht
        | some y =>
          intro e1 e2
          simp only [orKeep] at e1 e2
          simp only [saved, e1, e2]
  exact key v hv

/-- What no call on other tapes changes. -/
structure SameConstants (t : FTape) (cs : List BV) (h₀ h : FHeap) : Prop where
  output : ∀ v, (h v).output = (h₀ v).output
  flags : ∀ v, (h v).isControl = false
  marks : ∀ v, (h v).marked = false
  kept : ∀ v, t.Constant cs v → (h v).ckpt = (h₀ v).ckpt

theorem SameConstants.step {t : FTape} {cs : List BV} {h₀ h h' : FHeap} (s : SameConstants t cs h₀ h) (u : TapeUse) (wfu : WF u.tape.blocks)
    (hw : u.call.evaluates → ∀ v, t.Constant cs v → ¬ u.tape.Writes u.controls v) (hc : u.call.step u.tape u.controls h = .ok h') :
    SameConstants t cs h₀ h' := by
  -- the same call, seen from its own tape
  have own := SameBase.step wfu (h₀ := h) (cs := u.controls) ⟨fun _ => rfl, s.flags, s.marks, fun _ _ => rfl⟩ u.call hc
  refine ⟨fun v => (own.output v).trans (s.output v), own.flags, own.marks, fun v hv => ?_⟩
  by_cases he : u.call.evaluates
  · exact (own.kept v (FTape.kept_of_not_writes (hw he v hv))).trans (s.kept v hv)
  · rw [← s.kept v hv]
    obtain ⟨t', cs', c⟩ := u
    cases c with
    | eval xs => exact absurd trivial he
    | crash xs k j => exact absurd trivial he
    | derivative J' cs'' seed =>
      cases hc
      obtain ⟨a, e⟩ := computeGradientState_adj_frame t'.blocks J' cs'' seed h s.flags s.marks v
      rw [e]
    | hessian J' cs'' ds =>
      cases hr : t'.computeHessian J' cs'' ds h with
      | error e => simp only [TapeCall.step, hr] at hc; cases hc
      | ok r =>
        simp only [TapeCall.step, hr] at hc
        cases hc
        obtain ⟨a, b, e⟩ := computeHessian_frame t' (FTape.WF_self wfu) J' cs'' ds h s.marks r.1 r.2 hr v
        simp only [e]

theorem SameConstants.run {t : FTape} {cs : List BV} {h₀ : FHeap} (l : List TapeUse) (wfl : ∀ u ∈ l, WF u.tape.blocks)
    (hw : ∀ u ∈ l, u.call.evaluates → ∀ v, t.Constant cs v → ¬ u.tape.Writes u.controls v) {h h' : FHeap} (s : SameConstants t cs h₀ h)
    (hr : runUses l h = .ok h') : SameConstants t cs h₀ h' := by
  induction l generalizing h with
  | nil => cases hr; exact s
  | cons u l ih =>
    unfold runUses at hr
    rw [List.foldlM_cons] at hr
    cases hc : u.call.step u.tape u.controls h with
    | error e => rw [hc] at hr; cases hr
    | ok h₁ =>
      rw [hc] at hr
      exact ih (fun u hu => wfl u (List.mem_cons_of_mem _ hu)) (fun u hu => hw u (List.mem_cons_of_mem _ hu))
        (s.step u (wfl u List.mem_cons_self) (hw u List.mem_cons_self) hc) hr

/-! ## The theorem -/

/-- **C70.** Any number of reduced functionals, on any tapes that share variables, are evaluated (also with exceptions) and differentiated in any order.
As long as no evaluation writes a constant of `rf` (a variable its tape reads and neither computes nor has as a control), `rf(x)` gives all variables
of its tape, the gradient and the Hessian action the values they have without any of those calls. -/
theorem several_tapes_independent (t : FTape) (wf : WF t.blocks) (cs : List BV) (hnd : cs.Nodup) (J : BV) (hJ : OnTape t.blocks J)
    (hcs : ∀ c ∈ cs, OnTape t.blocks c) (h₀ : FHeap) (hfl : ∀ v, (h₀ v).isControl = false) (hmk : ∀ v, (h₀ v).marked = false)
    (l : List TapeUse) (wfl : ∀ u ∈ l, WF u.tape.blocks)
    (hw : ∀ u ∈ l, u.call.evaluates → ∀ v, t.Constant cs v → ¬ u.tape.Writes u.controls v)
    (h : FHeap) (hr : runUses l h₀ = .ok h) (x : List ℝ) (hx : x.length = cs.length) (seed : ℝ) (ds : List ℝ) :
    (∀ v, OnTape t.blocks v → saved (rfEval t.blocks cs x h) v = saved (rfEval t.blocks cs x h₀) v) ∧
    (computeGradient t.blocks J cs seed (rfEval t.blocks cs x h)).1 = (computeGradient t.blocks J cs seed (rfEval t.blocks cs x h₀)).1 ∧
    (t.computeHessian J cs ds (computeGradientState t.blocks J cs seed (rfEval t.blocks cs x h))).map (·.1)
      = (t.computeHessian J cs ds (computeGradientState t.blocks J cs seed (rfEval t.blocks cs x h₀))).map (·.1) := by
  have s : SameConstants t cs h₀ h := SameConstants.run l wfl hw ⟨fun _ => rfl, hfl, hmk, fun _ _ => rfl⟩ hr
  have hsv := evaluation_of_constants t wf cs hnd x hx h h₀ s.flags hfl s.output s.kept
  have hon : ∀ v, touched t cs J v → OnTape t.blocks v := by
    rintro v (hv | hv | rfl)
    · exact hv
    · exact hcs v hv
    · exact hJ
  have m₁ : ∀ v, (rfEval t.blocks cs x h v).marked = false := fun v => by
    obtain ⟨o, ho⟩ := rfEval_frame t.blocks cs x h v (fun c _ => s.flags c); rw [ho]; exact s.marks v
  have m₀ : ∀ v, (rfEval t.blocks cs x h₀ v).marked = false := fun v => by
    obtain ⟨o, ho⟩ := rfEval_frame t.blocks cs x h₀ v (fun c _ => hfl c); rw [ho]; exact hmk v
  have f₁ : ∀ v, (rfEval t.blocks cs x h v).isControl = false := fun v => by
    obtain ⟨o, ho⟩ := rfEval_frame t.blocks cs x h v (fun c _ => s.flags c); rw [ho]; exact s.flags v
  have f₀ : ∀ v, (rfEval t.blocks cs x h₀ v).isControl = false := fun v => by
    obtain ⟨o, ho⟩ := rfEval_frame t.blocks cs x h₀ v (fun c _ => hfl c); rw [ho]; exact hfl v
  refine ⟨hsv, ?_⟩
  generalize rfEval t.blocks cs x h = g₁ at *
  generalize rfEval t.blocks cs x h₀ = g₀ at *
  have ha := adj_of_saved t J cs seed hon g₁ g₀ (fun v hv => hsv v (hon v hv)) m₁ m₀
  refine ⟨?_, ?_⟩
  · unfold computeGradient
    simp only []
    apply List.map_congr_left
    intro c hc
    unfold getDerivative
    rw [ha c (Or.inr (Or.inl hc))]
  refine hessian_of_saved t J cs ds _ _ (fun v hv => ?_) ha (fun v _ => ?_) fun v hv => Or.inl (hon v hv)
  · obtain ⟨a, e1⟩ := computeGradientState_adj_frame t.blocks J cs seed g₁ f₁ m₁ v
    obtain ⟨b, e0⟩ := computeGradientState_adj_frame t.blocks J cs seed g₀ f₀ m₀ v
    have := hsv v (hon v hv)
    unfold saved at this ⊢
    rw [e1, e0]; exact this
  · obtain ⟨a, e1⟩ := computeGradientState_adj_frame t.blocks J cs seed g₁ f₁ m₁ v
    obtain ⟨b, e0⟩ := computeGradientState_adj_frame t.blocks J cs seed g₀ f₀ m₀ v
    rw [e1, e0]
    exact (m₁ v).trans (m₀ v).symm

/-- `w = (x * x) * x`, recorded on a second tape with the `x` of `sqTape` (variable 0). -/
def cubeOnSecond : FTape := [.bin .mul 0 0 2, .bin .mul 2 0 3]

/-- `w = y + x`, recorded on a second tape with the `x` and the result `y` of `sqTape` (variables 0 and 1). -/
def sumOnSecond : FTape := [.bin .add 0 1 4]

theorem cubeOnSecond_wf : WF cubeOnSecond.blocks := by
  refine ⟨?_, ?_, ?_⟩
  · intro b hb
    simp only [FTape.blocks, cubeOnSecond, List.map_cons, List.map_nil, List.mem_cons, List.not_mem_nil, or_false] at hb
    rcases hb with rfl | rfl <;> simp [FBlock.toBlock]
  · simp [FTape.blocks, cubeOnSecond, FBlock.toBlock]
  · simp [FTape.blocks, cubeOnSecond, FBlock.toBlock]

theorem sumOnSecond_wf : WF sumOnSecond.blocks := by
  refine ⟨?_, ?_, ?_⟩
  · intro b hb
    simp only [FTape.blocks, sumOnSecond, List.map_cons, List.map_nil, List.mem_cons, List.not_mem_nil, or_false] at hb
    subst hb; simp [FBlock.toBlock]
  · simp [FTape.blocks, sumOnSecond, FBlock.toBlock]
  · simp [FTape.blocks, sumOnSecond, FBlock.toBlock]

/-- The hypotheses of `several_tapes_independent` hold for two functionals of the same `x` on two tapes, used alternately. -/
example : ∃ h, runUses [⟨sqTape, [0], .eval [5]⟩, ⟨cubeOnSecond, [0], .eval [2]⟩, ⟨sqTape, [0], .crash [7] 0 0⟩,
      ⟨sqTape, [0], .derivative 1 [0] 1⟩, ⟨cubeOnSecond, [0], .derivative 3 [0] 1⟩, ⟨sqTape, [0], .hessian 1 [0] [1]⟩] unitHeap = .ok h ∧
    WF cubeOnSecond.blocks ∧ WF sqTape.blocks ∧ OnTape cubeOnSecond.blocks 3 ∧ OnTape cubeOnSecond.blocks 0 ∧
    (∀ v, cubeOnSecond.Constant [0] v → ¬ sqTape.Writes [0] v ∧ ¬ cubeOnSecond.Writes [0] v) ∧ sqTape.Writes [0] 0 ∧ OnTape cubeOnSecond.blocks 0 := by
  refine ⟨_, rfl, cubeOnSecond_wf, sqTape_wf, ⟨_, List.mem_cons_of_mem _ List.mem_cons_self, Or.inr (List.mem_singleton.2 rfl)⟩,
    ⟨_, List.mem_cons_self, Or.inl List.mem_cons_self⟩, ?_, Or.inl (by simp), ⟨_, List.mem_cons_self, Or.inl List.mem_cons_self⟩⟩
  rintro v ⟨⟨b, hb, hv⟩, hc, ho⟩
  exfalso
  have h2 := ho (.bin .mul 0 0 2) (by simp [cubeOnSecond])
  have h3 := ho (.bin .mul 2 0 3) (by simp [cubeOnSecond])
  simp only [FTape.blocks, cubeOnSecond, List.map_cons, List.map_nil, List.mem_cons, List.not_mem_nil, or_false] at hb
  simp only [FBlock.out] at h2 h3
  rcases hb with rfl | rfl <;> simp [FBlock.toBlock] at hv hc <;> grind

/-- **C70, refuted: the derivative is taken at the last values of the functional's own evaluation.**  `x ↦ x * x * x` on one tape is evaluated at 2,
then another functional of the same `x` on another tape at 5.  The derivative of the first is 54 (and 12 before the second call): it mixes the new
value of `x` with the old `x * x`, and is the derivative at no point either functional was evaluated at. -/
theorem derivative_mixes_tapes :
    let h₁ := rfEval cubeOnSecond.blocks [0] [2] unitHeap
    let h₂ := rfEval sqTape.blocks [0] [5] h₁
    (computeGradient cubeOnSecond.blocks 3 [0] 1 h₁).1 = [12] ∧ (computeGradient cubeOnSecond.blocks 3 [0] 1 h₂).1 = [54] ∧
    _root_.deriv (fun x : ℝ => x * x * x) 2 = 12 ∧ _root_.deriv (fun x : ℝ => x * x * x) 5 = 75 := by
  refine ⟨?_, ?_, ?_, ?_⟩
  · have e : (computeGradient cubeOnSecond.blocks 3 [0] 1 (rfEval cubeOnSecond.blocks [0] [2] unitHeap)).1 = [(1 * (2 * 2) + 1 * 2 * 2) + 1 * 2 * 2] := rfl
    rw [e]; norm_num
  · have e : (computeGradient cubeOnSecond.blocks 3 [0] 1 (rfEval sqTape.blocks [0] [5] (rfEval cubeOnSecond.blocks [0] [2] unitHeap))).1
        = [(1 * (2 * 2) + 1 * 5 * 5) + 1 * 5 * 5] := rfl
    rw [e]; norm_num
  all_goals
    have hd : ∀ a : ℝ, HasDerivAt (fun x : ℝ => x * x * x) ((1 * a + a * 1) * a + a * a * 1) a := fun a =>
      ((hasDerivAt_id a).mul (hasDerivAt_id a)).mul (hasDerivAt_id a)
    rw [(hd _).deriv]; norm_num

/-- **C70, the hypothesis is needed.**  `w = x + y` on a second tape, where `y = x * x` is computed on the first one and a constant of the second:
an evaluation on the first tape changes what `rf(x)` on the second gives at the same `x`. -/
theorem other_tape_changes_constant :
    ¬ ∀ (t : FTape) (_ : WF t.blocks) (cs : List BV) (_ : cs.Nodup) (l : List TapeUse) (_ : ∀ u ∈ l, WF u.tape.blocks) (h₀ h : FHeap)
      (_ : ∀ v, (h₀ v).isControl = false) (_ : ∀ v, (h₀ v).marked = false) (_ : runUses l h₀ = .ok h) (x : List ℝ) (_ : x.length = cs.length) (v : BV)
      (_ : OnTape t.blocks v), saved (rfEval t.blocks cs x h) v = saved (rfEval t.blocks cs x h₀) v := by
  intro H
  have := H sumOnSecond sumOnSecond_wf [0] (by simp) [⟨sqTape, [0], .eval [5]⟩] (by simp [sqTape_wf]) unitHeap _ (fun _ => rfl) (fun _ => rfl) rfl [3] rfl 4
    ⟨_, List.mem_cons_self, Or.inr (List.mem_singleton.2 rfl)⟩
  have e₁ : saved (rfEval sumOnSecond.blocks [0] [3] (rfEval sqTape.blocks [0] [5] unitHeap)) 4 = 3 + 5 * 5 := rfl
  have e₀ : saved (rfEval sumOnSecond.blocks [0] [3] unitHeap) 4 = 3 + (if 1 = 1 then (5 : ℝ) else 2) := rfl
  have e : saved (rfEval sumOnSecond.blocks [0] [3] (rfEval sqTape.blocks [0] [5] unitHeap)) 4 = saved (rfEval sumOnSecond.blocks [0] [3] unitHeap) 4 := this
  rw [e₁, e₀] at e
  norm_num at e

end Pyadjoint
