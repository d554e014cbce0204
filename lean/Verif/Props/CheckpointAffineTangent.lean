import Verif.Props.CheckpointAffineProgram
import Verif.Props.CheckpointHessian
import Verif.Props.ProgramTangent

/-!
# C66: tangents at new control values under every schedule, for programs affine in the controls

After an evaluation at new control values, tangents on a checkpointed tape use intermediate values of the recording (`checkpointed_tangent_stale`).  They
are right, whatever the schedule and the history, for programs that are affine in the controls (`affine_tangent_partial`, `affine_program_tangent_partial`).
-/

namespace Pyadjoint

open Source

namespace CTape

/-- The tangent of an affine operation does not read the values that may differ. -/
theorem tlmNew_affine {P : BV → Prop} {f : FBlock} (hf : f.Affine P) (rel : Bool) {x y : BV → ℝ} {tl : BV → Option ℝ} (o : Option ℝ)
    (hxy : ∀ d, P d → x d = y d) (ht : ∀ d ∈ f.deps, P d → tl d = none) : f.tlmNew rel x tl o = f.tlmNew rel y tl o := by
  cases f with
  | un op a _ =>
    have hta : P a → tl a = none := ht a (by simp [FBlock.deps])
    cases op with
    | neg => rfl
    | exp => simp [FBlock.tlmNew, hta hf]
    | log => simp [FBlock.tlmNew, hta hf]
  | bin op a b _ =>
    have hta : P a → tl a = none := ht a (by simp [FBlock.deps])
    have htb : P b → tl b = none := ht b (by simp [FBlock.deps])
    cases op with
    | add => simp [FBlock.tlmNew, BOp.tlmC]
    | sub => simp [FBlock.tlmNew]
    | mul =>
      rcases hf with h | h
      · simp [FBlock.tlmNew, BOp.tlmC, hta h, hxy a h]
      · simp [FBlock.tlmNew, BOp.tlmC, htb h, hxy b h]
    | div => simp [FBlock.tlmNew, htb hf, hxy b hf]
    | pow => simp [FBlock.tlmNew, hta hf.1, htb hf.2]
    | min => simp [FBlock.tlmNew, hta hf.1, htb hf.2]
    | max => simp [FBlock.tlmNew, hta hf.1, htb hf.2]

/-- The sweep over affine operations gives the same tangents from heaps that agree on the values independent of the controls. -/
theorem affine_tlm_congr (t : FTape) (hself : ∀ b ∈ t, b.out ∉ b.deps) (m : Bool) {P : BV → Prop} {h₁ h₂ : FHeap}
    (haff : ∀ b ∈ t, b.Affine P) (hclosed : ∀ b ∈ t, P b.out → ∀ d ∈ b.deps, P d) (hs : ∀ v, P v → saved h₁ v = saved h₂ v)
    (hm : ∀ v, (h₁ v).marked = (h₂ v).marked) {S : BV → Prop} (hS : ∀ b ∈ t, S b.out ∧ ∀ d ∈ b.deps, S d)
    (ht : ∀ v, S v → (h₁ v).tlm = (h₂ v).tlm) (hnone : ∀ v, S v → P v → (h₁ v).tlm = none) (v : BV) (hv : S v) :
    (t.evaluateTlm m h₁ v).tlm = (t.evaluateTlm m h₂ v).tlm := by
  induction t generalizing h₁ h₂ with
  | nil => exact ht v hv
  | cons b t ih =>
    have hb := hself b List.mem_cons_self
    have hfr : ∀ (h : FHeap) w, ∃ o, b.evaluateTlm m h w = { h w with tlm := o } := by
      intro h w
      rw [b.evaluateTlm_apply m h hb]
      split
      · exact ⟨_, rfl⟩
      · exact ⟨_, rfl⟩
    refine ih (h₁ := b.evaluateTlm m h₁) (h₂ := b.evaluateTlm m h₂) (fun b hb => hself b (List.mem_cons_of_mem _ hb))
      (fun b hb => haff b (List.mem_cons_of_mem _ hb)) (fun b hb => hclosed b (List.mem_cons_of_mem _ hb)) (fun w hw => ?_) (fun w => ?_)
      (fun b hb => hS b (List.mem_cons_of_mem _ hb)) (fun w hw => ?_) (fun w hw hP => ?_)
    · obtain ⟨o₁, e₁⟩ := hfr h₁ w
      obtain ⟨o₂, e₂⟩ := hfr h₂ w
      rw [saved_congr (h := b.evaluateTlm m h₁) (h' := h₁) (by rw [e₁]) (by rw [e₁]),
        saved_congr (h := b.evaluateTlm m h₂) (h' := h₂) (by rw [e₂]) (by rw [e₂])]
      exact hs w hw
    · obtain ⟨o₁, e₁⟩ := hfr h₁ w
      obtain ⟨o₂, e₂⟩ := hfr h₂ w
      rw [e₁, e₂]
      exact hm w
    · rw [b.evaluateTlm_apply m h₁ hb, b.evaluateTlm_apply m h₂ hb]
      split
      · dsimp only
        rw [hm w, ht w hw, tlmNew_affine (haff b List.mem_cons_self) _ _ hs fun d hd => hnone d ((hS b List.mem_cons_self).2 d hd)]
        exact b.tlmNew_congr _ _ _ _ _ _ (fun _ _ => rfl) (fun d hd => ht d ((hS b List.mem_cons_self).2 d hd))
      · exact ht w hw
    · rw [b.evaluateTlm_apply m h₁ hb]
      split
      · rename_i e
        dsimp only
        rw [b.tlmNew_none _ _ _ _ fun d hd => hnone d ((hS b List.mem_cons_self).2 d hd) (hclosed b List.mem_cons_self (e ▸ hP) d hd)]
        exact hnone w hw hP
      · exact hnone w hw hP

/-- **C66, tangents of affine programs** (partial: operations affine in the controls; `checkpointed_tangent_stale` for the others).  For every recorded `AdjFloat` program that is affine
in the controls and every well-formed schedule that reverses every step once, after any evaluations at any values of the controls and any derivatives: `tape.evaluate_tlm`, with or without
markings, started in any directions of any of the controls, gives every variable the tangent that it has without checkpointing after an evaluation at any control values `xs`. -/
theorem affine_tangent_partial {sch : Schedule} {h : FHeap} {es : List (Event ℝ ℝ ℝ)} {t : FTape} (ht : Event.blocks es = t.blocks)
    {τ₀ τ : CTape ℝ ℝ ℝ} (hr : Recorded sch h es τ₀) (hrev : sch.Reverses) (hf : Faithful h es) {truthy : ℝ → Bool} {cs : List BV}
    (hcs : cs.Nodup) (hinputs : ∀ c ∈ cs, ∀ b ∈ t.blocks, c ∉ b.outs) (haffine : ∀ b ∈ t, b.Affine (Indep t.blocks cs))
    (hh : ControlUses truthy cs τ₀ τ) {ds : List BV} (hds : ∀ d ∈ ds, d ∈ cs) (dirs : List ℝ) (m : Bool) {xs : List ℝ} (hlen : xs.length = cs.length)
    (v : BV) (hv : OnTape t.blocks v) :
    (t.evaluateTlm m (seedTlm ds dirs (resetVariables t.blocks .tlm τ.heap)) v).tlm =
      (t.evaluateTlm m (seedTlm ds dirs (resetVariables t.blocks .tlm (rfEval t.blocks cs xs h))) v).tlm := by
  classical
  have wf : WF t.blocks := ht ▸ hr.ssa
  have hst : Stable (Indep t.blocks cs) t.blocks (fun v => (h v).output) := stable_indep (fun _ h => h) (ht ▸ hf)
  have hkept : Kept (Indep t.blocks cs) (fun v => (h v).output) sch t.blocks τ₀ := by
    have hal := hr.alive (Indep (Event.blocks es) cs)
    obtain ⟨gc, pk, eager, τ₁, hgc, h1, h2⟩ := hr.recorded
    have hfr : Fresh (Indep (Event.blocks es) cs) (fun v => (h v).output) h :=
      ⟨fun _ => rfl, fun v _ c hc => (by rw [(hr.unused v).1] at hc; cases hc),
        fun v => (hr.unused v).2.2.2.1, fun v => (hr.unused v).2.2.2.2⟩
    have ht' := (taped_enable hfr hgc h1).recording es (show WF ([] ++ Event.blocks es) from hr.ssa) h2
    rw [List.nil_append] at ht'
    rw [← ht]
    exact ⟨Or.inl ht', hal.flags, fun v => (hr.same v).2.2.1.trans (hr.unused v).2.2.1⟩
  have hk := hh.kept hr.wellFormed hrev wf hst hkept
  have hclean : Clean (Indep t.blocks cs) (fun v => (h v).output) τ := by
    rcases hk.state with h | ⟨-, N, h, -⟩
    · exact h.clean
    · exact h.clean
  have hrun := rfEval_isRun wf (fun v => ⟨(hr.unused v).1, (hr.unused v).2.1⟩) hcs hinputs (float_total t) hlen
  refine affine_tlm_congr t (FTape.WF_self wf) m (P := Indep t.blocks cs) haffine (fun b hb ho d hd hreach => ho ?_) (fun w hw => ?_) (fun w => ?_)
    (S := OnTape t.blocks) (fun b hb => ⟨⟨b.toBlock, List.mem_map.2 ⟨b, hb, rfl⟩, Or.inr ((b.mem_outs _).2 rfl)⟩,
      fun d hd => ⟨b.toBlock, List.mem_map.2 ⟨b, hb, rfl⟩, Or.inl (by rw [b.toBlock_deps]; exact hd)⟩⟩)
    (fun w hw => seeded_tlm ds dirs _ _ hw) (fun w hw hP => ?_) v hv
  · exact .step (List.mem_map.2 ⟨b, hb, rfl⟩) (by rw [b.toBlock_deps]; exact hd) hreach ((b.mem_outs _).2 rfl)
  · obtain ⟨o₁, e₁⟩ := seed_frame t.blocks ds dirs τ.heap w
    obtain ⟨o₂, e₂⟩ := seed_frame t.blocks ds dirs (rfEval t.blocks cs xs h) w
    rw [saved_congr (h := seedTlm ds dirs (resetVariables t.blocks .tlm τ.heap)) (h' := τ.heap) (by rw [e₁]) (by rw [e₁]),
      saved_congr (h := seedTlm ds dirs (resetVariables t.blocks .tlm (rfEval t.blocks cs xs h))) (h' := rfEval t.blocks cs xs h) (by rw [e₂]) (by rw [e₂]), IsRun.indep wf (ht ▸ hf) hrun w hw]
    exact (CleanHeap.mk hclean.output hclean.heap).saved hw
  · obtain ⟨o₁, e₁⟩ := seed_frame t.blocks ds dirs τ.heap w
    obtain ⟨o₂, e₂⟩ := seed_frame t.blocks ds dirs (rfEval t.blocks cs xs h) w
    obtain ⟨c, e⟩ := rfEval_frame t.blocks cs xs h w fun c _ => (hr.unused c).2.1
    rw [e₁, e₂, e]
    exact (hk.marks w).trans (hr.unused w).2.2.1.symm
  · rw [seedTlm_of_not_mem _ _ _ _ fun hd => hP (.base (hds w hd)), resetVariables_apply, if_pos hw]
    rfl

/-- Operations are determined by what they compute, so that the blocks of a tape determine its operations. -/
theorem toBlock_injective : Function.Injective FBlock.toBlock := by
  intro f g e
  have hd : f.toBlock.deps = g.toBlock.deps := by rw [e]
  have ho : f.toBlock.outs = g.toBlock.outs := by rw [e]
  have hv1 : f.toBlock.recomputeC [1] 0 = g.toBlock.recomputeC [1] 0 := by rw [e]
  have hv2 : f.toBlock.recomputeC [2, 3] 0 = g.toBlock.recomputeC [2, 3] 0 := by rw [e]
  cases f with
  | un op a o =>
    cases g with
    | un op' a' o' =>
      simp only [FBlock.toBlock, List.cons.injEq, and_true] at hd ho
      subst hd ho
      have hne := Real.exp_pos 1
      have hv : op.val 1 = op'.val 1 := by simpa [FBlock.toBlock] using hv1
      cases op <;> cases op' <;> first | rfl | (exfalso; simp only [UOp.val, Real.log_one] at hv; linarith)
    | bin => simp [FBlock.toBlock] at hd
  | bin op a b o =>
    cases g with
    | un => simp [FBlock.toBlock] at hd
    | bin op' a' b' o' =>
      simp only [FBlock.toBlock, List.cons.injEq, and_true] at hd ho
      obtain ⟨rfl, rfl⟩ := hd
      subst ho
      have h8 : ((2 : ℝ) ^ (3 : ℝ)) = 8 := by norm_num
      have hv : op.val 2 3 = op'.val 2 3 := by simpa [FBlock.toBlock] using hv2
      cases op <;> cases op' <;> first | rfl | (exfalso; simp only [BOp.val, h8] at hv; norm_num at hv)

theorem blocks_injective {t t' : FTape} (h : t.blocks = t'.blocks) : t = t' := List.map_injective_iff.2 toBlock_injective h

variable {p : List Instr} {A : Source.State} {sch : Schedule} {J : Nat} {cs : List Nat} {h : FHeap} {es : List (Event ℝ ℝ ℝ)}
  {τ₀ τ : CTape ℝ ℝ ℝ} {Jv : BV} {cvs : List BV}

/-- **C66 and C05 for affine programs as written** (partial: `AffineIn`).  A program that is affine in the controls, run under any well-formed schedule that reverses every step once, its
operations divided into time steps in any way, and used by any evaluations and any derivatives: resetting the tangents, giving the controls the directions `dir` and calling
`tape.evaluate_tlm()` gives `J`, the result of an annotated operation, the directional derivative of the program as written, at every point `x₀`, in particular at the one of the last evaluation. -/
theorem affine_program_tangent_partial (hp : RecordedProgram p A sch J cs h es τ₀ Jv cvs) (hrev : sch.Reverses) (hnd : cs.Nodup)
    (hfree : A.FreeControls cs) {r : Source.Reg} (hJr : A.regs[J]? = some r) (hJo : r.origin ≠ .free) (haff : A.AffineIn cs) {truthy : ℝ → Bool}
    (hh : ControlUses truthy cvs τ₀ τ) {n : Nat} (hn : cs.length = n) (x₀ dir : Fin n → ℝ) (hsm : A.Smooth cs (List.ofFn x₀)) {t : FTape}
    (ht : Event.blocks es = t.blocks) :
    HasDerivAt (fun a : ℝ => A.valueAt cs (List.ofFn (x₀ + a • dir)) J)
      ((t.evaluateTlm false (seedTlm cvs (List.ofFn dir) (resetVariables t.blocks .tlm τ.heap)) Jv).tlm.getD 0) 0 := by
  have hf := hp.faithful
  have hnd' := hp.nodup hnd
  have hin' := hp.inputs hfree
  have hlen := hp.length
  have hrec := hp.recorded
  obtain ⟨s, R, hU, hA, hJ, hcs, rfl, hes⟩ := hp.plain
  cases blocks_injective (ht.symm.trans hes)
  subst hn
  have hvn : cvs.length = cs.length := hlen
  have hon := R.onTape hJ hJr hJo
  rw [affine_tangent_partial hes hrec hrev hf hnd' (hes ▸ hin') (R.affine hcs haff) hh (fun _ h => h) (List.ofFn dir) false
    (xs := List.ofFn x₀) (by rw [List.length_ofFn, hvn]) Jv hon]
  have e : (fun a : ℝ => A.valueAt cs (List.ofFn (x₀ + a • dir)) J)
      = fun a : ℝ => saved (rfEval s.tape.blocks cvs (List.ofFn (x₀ + a • dir)) s.heap) Jv := by
    funext a
    rw [R.replay hcs (by simp) J Jv hJ]
  rw [e]
  have key : ∀ (n : Nat) (hn : cvs.length = n) (x₀ dir : Fin n → ℝ) (hsm : A.Smooth cs (List.ofFn x₀)),
      HasDerivAt (fun a : ℝ => saved (rfEval s.tape.blocks cvs (List.ofFn (x₀ + a • dir)) s.heap) Jv)
        ((s.tape.evaluateTlm false (seedTlm cvs (List.ofFn dir) (resetVariables s.tape.blocks .tlm (rfEval s.tape.blocks cvs (List.ofFn x₀) s.heap))) Jv).tlm.getD 0) 0 := by
    rintro _ rfl x₀ dir hsm
    exact (tlm_exact s.tape R.wf cvs hnd' s.heap R.flags (R.independent hcs hfree) x₀ dir
      (fun b hb _ => R.smooth hcs (by rw [List.length_ofFn, hvn]) hsm b hb) Jv hon).1
  exact key _ hvn x₀ dir hsm

/-! ## Non-vacuity -/

/-- `affine_tangent_partial` and `affine_program_tangent_partial` for `affineProgram` (`J = 9x + x`), after a derivative and an evaluation at `7`, under the multistage schedule, at every point. -/
example (x₀ dir : Fin 1 → ℝ) : ∃ A, RecordedProgram affineProgram A multistage2 4 [0] exAffineHeap exAffineEvents exAffineTape 4 [0] ∧
    HasDerivAt (fun a : ℝ => A.valueAt [0] (List.ofFn (x₀ + a • dir)) 4)
      ((exAffine.evaluateTlm false (seedTlm [0] (List.ofFn dir) (resetVariables exAffine.blocks .tlm exAffineUsed.heap)) 4).tlm.getD 0) 0 := by
  obtain ⟨A, hregs, hp⟩ := affineProgram_recorded
  have hc : ¬ A.DependsOn [0] 1 := by
    intro h
    cases h with
    | control h => simp at h
    | op hr hu _ => rw [hregs] at hr; cases hr; exact hu
  refine ⟨A, hp, affine_program_tangent_partial hp multistage2_reverses (by simp) ?_
    (r := ⟨3 * (3 * 2) + 2, true, .bin .add 3 0, 3 * (3 * 2) + 2⟩) (by rw [hregs]; rfl) Def.noConfusion ?_ exAffine_used.uses rfl x₀ dir ?_ rfl⟩
  · intro c hc r hr
    rw [List.mem_singleton.1 hc, hregs] at hr
    cases hr; rfl
  · intro i r hr
    rw [hregs] at hr
    match i, hr with
    | 0, hr => cases hr; trivial
    | 1, hr => cases hr; trivial
    | 2, hr => cases hr; exact Or.inl hc
    | 3, hr => cases hr; exact Or.inl hc
    | 4, hr => cases hr; trivial
  · intro i r hr
    rw [hregs] at hr
    match i, hr with
    | 0, hr => cases hr; trivial
    | 1, hr => cases hr; trivial
    | 2, hr => cases hr; trivial
    | 3, hr => cases hr; trivial
    | 4, hr => cases hr; trivial

end CTape
end Pyadjoint
