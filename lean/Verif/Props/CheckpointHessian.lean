import Verif.Proofs.CkptQuiet
import Verif.Proofs.HessNoAdj
import Verif.Props.History
import Verif.Model.SecondOrder

/-!
# C66: second derivatives and tangents of a checkpointed tape

`compute_hessian` and `evaluate_tlm` do not go through the checkpoint manager (`drivers.py:36-75`, `tape.py:379-389`),
and the reverse sweep of a derivative deletes the adjoint values that the Hessian needs (`checkpointing.py:424-428`).
So a Hessian on a checkpointed tape is never anything but zero (`checkpointed_hessian_zero`), and at the recorded values
it either raises or is what the tape without checkpointing gives (`checkpointed_hessian_partial`,
`checkpointed_hessian_raises`).  Tangents are right at the recorded values (`checkpointed_tangent_partial`) and wrong at
others (`checkpointed_tangent_stale`).
-/

namespace Pyadjoint
namespace CTape

variable {V T A : Type*}

theorem out_not_mem {t : FTape} {cs : List BV} (hcs : ∀ c ∈ cs, ∀ b ∈ t, c ≠ b.out) {b : FBlock} (hb : b ∈ t) :
    b.out ∉ cs := fun h => hcs _ h b hb rfl

/-- **C66**, zeros.  For every recording and every well-formed schedule that reverses every step once, after any use of
the reduced functionals, a derivative with respect to inputs of the program, and any evaluations after it: a Hessian that
is returned is zero in every component, for any functional, controls and direction. -/
theorem checkpointed_hessian_zero {sch : Schedule} {h : FHeap} {es : List (Event ℝ ℝ ℝ)} {t : FTape}
    (ht : Event.blocks es = t.blocks) {τ₀ τ₁ τ₂ τ : CTape ℝ ℝ ℝ} (hr : Recorded sch h es τ₀) (hrev : sch.Reverses)
    {truthy : ℝ → Bool} (hh : Uses truthy τ₀ τ₁) {J : BV} {cs : List BV} {a : ℝ} {g : List ℝ}
    (hcs : ∀ c ∈ cs, ∀ b ∈ t, c ≠ b.out) (hd : rfDerivative J cs a τ₁ = .ok (g, τ₂)) (he : Evals truthy τ₂ τ)
    {J' : BV} {cs' : List BV} (hcs' : ∀ c ∈ cs', OnTape t.blocks c ∨ c = J') {ds hs : List ℝ} {h' : FHeap}
    (hok : t.computeHessian J' cs' ds τ.heap = .ok (hs, h')) : ∀ x ∈ hs, x = 0 := by
  have hu := hh.usable hr.wellFormed hrev hr.ssa hr.usable
  obtain ⟨hu₂, hq⟩ := rfDerivative_usable hr.wellFormed hrev hr.ssa hu hd
  obtain ⟨-, ha⟩ := he.usable hr.wellFormed hrev hu₂
  have wf : WF t.blocks := ht ▸ hr.ssa
  refine (computeHessian_no_adj t wf J' cs' ds (fun b hb => ?_) hcs' hok fun _ => none).1
  rw [ha]
  refine hq b.toBlock (by rw [ht]; exact List.mem_map.2 ⟨b, hb, rfl⟩) _ ((b.mem_outs b.out).2 rfl) (out_not_mem hcs hb)

/-- The tape is ready after recording. -/
theorem Recorded.ready {sch : Schedule} {h : Heap V T A} {es : List (Event V T A)} {τ : CTape V T A}
    (hr : Recorded sch h es τ) : Ready (fun v => (h v).output) sch (Event.blocks es) τ := by
  have hal := hr.alive (fun _ => True)
  obtain ⟨gc, pk, eager, τ₁, hgc, h1, h2⟩ := hr.recorded
  have hf : Fresh (fun _ => True) (fun v => (h v).output) h :=
    ⟨fun _ => rfl, fun v _ c hc => (by rw [(hr.unused v).1] at hc; cases hc),
      fun v => (hr.unused v).2.2.2.1, fun v => (hr.unused v).2.2.2.2⟩
  have ht := (taped_enable hf hgc h1).recording es (show WF ([] ++ Event.blocks es) from hr.ssa) h2
  rw [List.nil_append] at ht
  exact ⟨Or.inl ht, hal.flags, fun v => (hr.same v).2.2.1.trans (hr.unused v).2.2.1⟩

theorem Ready.saved {out : BV → V} {sch : Schedule} {bs : Blocks V T A} {τ : CTape V T A} (h : Ready out sch bs τ)
    (v : BV) : saved τ.heap v = out v := by
  have hc : CleanAll out τ := by
    rcases h.state with h | ⟨-, N, h, -⟩
    · exact h.clean
    · exact h.clean
  exact hc.cleanHeap.saved trivial

/-- Recomputing an operation of the recording from the recorded values gives the recorded result. -/
def Faithful (h : Heap V T A) (es : List (Event V T A)) : Prop :=
  ∀ b ∈ Event.blocks es, ∀ (i : Nat) (o : BV), b.outs[i]? = some o →
    ∀ y, b.recomputeC (b.deps.map fun d => (h d).output) i = some y → y = (h o).output

theorem Faithful.stable {h : Heap V T A} {es : List (Event V T A)} (hf : Faithful h es) :
    Stable (fun _ => True) (Event.blocks es) (fun v => (h v).output) :=
  fun b hb i o ho _ => ⟨fun _ _ => trivial, hf b hb i o ho⟩

/-- **C66**, second derivatives (partial: it may raise instead, `checkpointed_hessian_raises`).  At the control values of
the recording, a Hessian that is returned after a derivative is the one that the same program recorded without
checkpointing gives after a derivative. -/
theorem checkpointed_hessian_partial {sch : Schedule} {h : FHeap} {es : List (Event ℝ ℝ ℝ)} {t : FTape}
    (ht : Event.blocks es = t.blocks) {τ₀ τ₁ τ : CTape ℝ ℝ ℝ} (hr : Recorded sch h es τ₀) (hrev : sch.Reverses)
    (hf : Faithful h es) {truthy : ℝ → Bool} (hh : Cycles truthy (fun v => (h v).output) τ₀ τ₁)
    {J : BV} {cs : List BV} {a : ℝ} {g : List ℝ} (hcs : ∀ c ∈ cs, ∀ b ∈ t, c ≠ b.out)
    (hon : ∀ c ∈ cs, OnTape t.blocks c) (hJ : OnTape t.blocks J)
    (hd : rfDerivative J cs a τ₁ = .ok (g, τ)) {ds hs : List ℝ} {h' : FHeap}
    (hok : t.computeHessian J cs ds τ.heap = .ok (hs, h')) :
    ∃ h'', t.computeHessian J cs ds (computeGradient t.blocks J cs a h).2 = .ok (hs, h'') := by
  have wf : WF t.blocks := ht ▸ hr.ssa
  have hready := hh.ready hr.wellFormed hrev hr.ssa hf.stable hr.ready
  have hready₂ := (rfDerivative_ready hr.wellFormed hrev hr.ssa hf.stable hready hd).1
  have huses : Usable sch (Event.blocks es) (fun v => (h v).output) τ₁ := by
    refine (?_ : Uses truthy τ₀ τ₁).usable hr.wellFormed hrev hr.ssa hr.usable
    clear hd hok hready hready₂
    induction hh with
    | start => exact .start _
    | call _ hr ih => exact .call ih hr
    | derivative _ hr ih => exact .derivative ih hr
  obtain ⟨-, hq⟩ := rfDerivative_usable hr.wellFormed hrev hr.ssa huses hd
  obtain ⟨-, k, hk⟩ := computeHessian_no_adj t wf J cs ds (fun b hb => hq b.toBlock
    (by rw [ht]; exact List.mem_map.2 ⟨b, hb, rfl⟩) _ ((b.mem_outs b.out).2 rfl) (out_not_mem hcs hb))
    (fun c hc => Or.inl (hon c hc)) hok (fun v => ((computeGradient t.blocks J cs a h).2 v).adj)
  have hcg : ∀ v, ∃ x, (computeGradient t.blocks J cs a h).2 v = { h v with adj := x } := fun v =>
    computeGradientState_adj_frame t.blocks J cs a h (fun v => (hr.unused v).2.1) (fun v => (hr.unused v).2.2.1) v
  have hmap := hessian_of_saved t J cs ds
    (withAdj (fun v => ((computeGradient t.blocks J cs a h).2 v).adj) τ.heap) (computeGradient t.blocks J cs a h).2
    (fun v _ => by
      rw [saved_withAdj, hready₂.saved v]
      obtain ⟨x, e⟩ := hcg v
      unfold Pyadjoint.saved
      rw [e]
      dsimp only
      rw [(hr.unused v).1])
    (fun v _ => rfl)
    (fun v _ => by
      show (τ.heap v).marked = _
      obtain ⟨x, e⟩ := hcg v
      rw [hready₂.marks v, e]
      exact (hr.unused v).2.2.1.symm)
    (fun v hv => Or.inl (by
      rcases hv with hv | hv | rfl
      · exact hv
      · exact hon v hv
      · exact hJ))
  rw [hk] at hmap
  cases hc : t.computeHessian J cs ds (computeGradient t.blocks J cs a h).2 with
  | error e => rw [hc] at hmap; cases hmap
  | ok r =>
    rw [hc] at hmap
    obtain ⟨r1, r2⟩ := r
    simp only [Except.map, Except.ok.injEq] at hmap
    subst hmap
    exact ⟨r2, rfl⟩

/-- **C66 fails wherever there is a second derivative.**  If the tape without checkpointing gives a Hessian that is not
zero, `compute_hessian` on the checkpointed tape raises `TypeError`. -/
theorem checkpointed_hessian_raises {sch : Schedule} {h : FHeap} {es : List (Event ℝ ℝ ℝ)} {t : FTape}
    (ht : Event.blocks es = t.blocks) {τ₀ τ₁ τ : CTape ℝ ℝ ℝ} (hr : Recorded sch h es τ₀) (hrev : sch.Reverses)
    (hf : Faithful h es) {truthy : ℝ → Bool} (hh : Cycles truthy (fun v => (h v).output) τ₀ τ₁)
    {J : BV} {cs : List BV} {a : ℝ} {g : List ℝ} (hcs : ∀ c ∈ cs, ∀ b ∈ t, c ≠ b.out)
    (hon : ∀ c ∈ cs, OnTape t.blocks c) (hJ : OnTape t.blocks J)
    (hd : rfDerivative J cs a τ₁ = .ok (g, τ)) {ds hs : List ℝ} {h' : FHeap}
    (hok : t.computeHessian J cs ds (computeGradient t.blocks J cs a h).2 = .ok (hs, h')) (hne : ∃ x ∈ hs, x ≠ 0) :
    t.computeHessian J cs ds τ.heap = .error .typeError := by
  cases hc : t.computeHessian J cs ds τ.heap with
  | error e => cases e; rfl
  | ok r =>
    obtain ⟨r1, r2⟩ := r
    obtain ⟨h'', e⟩ := checkpointed_hessian_partial ht hr hrev hf hh hcs hon hJ hd hc
    rw [hok] at e
    cases e
    have hu : Uses truthy τ₀ τ₁ := by
      clear hd hc
      induction hh with
      | start => exact .start _
      | call _ hr ih => exact .call ih hr
      | derivative _ hr ih => exact .derivative ih hr
    obtain ⟨x, hx, h0⟩ := hne
    exact absurd (checkpointed_hessian_zero ht hr hrev hu hcs hd (.start _) (fun c hc => Or.inl (hon c hc)) hc x hx) h0

/-! ### Tangents -/

theorem tlm_congr [Add T] (bs : Blocks V T A) (m : Bool) {h₁ h₂ : Heap V T A} {P : BV → Prop}
    (hP : ∀ b ∈ bs, (∀ d ∈ b.deps, P d) ∧ ∀ o ∈ b.outs, P o) (hs : ∀ v, P v → Pyadjoint.saved h₁ v = Pyadjoint.saved h₂ v)
    (hm : ∀ v, P v → (h₁ v).marked = (h₂ v).marked) (ht : ∀ v, P v → (h₁ v).tlm = (h₂ v).tlm) (v : BV) (hv : P v) :
    (evaluateTlm bs m h₁ v).tlm = (evaluateTlm bs m h₂ v).tlm := by
  induction bs generalizing h₁ h₂ with
  | nil => exact ht v hv
  | cons b bs ih =>
    refine ih (h₁ := b.evaluateTlm m h₁) (h₂ := b.evaluateTlm m h₂) (fun b hb => hP b (List.mem_cons_of_mem _ hb))
      (fun w hw => ?_) (fun w hw => ?_) (fun w hw => ?_)
    · rw [saved_congr (h := b.evaluateTlm m h₁) (h' := h₁) (by rw [Block.evaluateTlm_apply]) (by rw [Block.evaluateTlm_apply]),
        saved_congr (h := b.evaluateTlm m h₂) (h' := h₂) (by rw [Block.evaluateTlm_apply]) (by rw [Block.evaluateTlm_apply])]
      exact hs w hw
    · rw [Block.evaluateTlm_apply, Block.evaluateTlm_apply]; exact hm w hw
    · rw [Block.evaluateTlm_apply, Block.evaluateTlm_apply]
      obtain ⟨hd, -⟩ := hP b List.mem_cons_self
      have e1 : (b.deps.map fun o => (h₁ o).tlm) = b.deps.map fun o => (h₂ o).tlm :=
        List.map_congr_left fun d h => ht d (hd d h)
      have e2 : b.deps.map (Pyadjoint.saved h₁) = b.deps.map (Pyadjoint.saved h₂) :=
        List.map_congr_left fun d h => hs d (hd d h)
      unfold Block.tlmAfter
      simp only [e1, e2, hm w hw, ht w hw]

theorem ftlm_congr (t : FTape) (hself : ∀ b ∈ t, b.out ∉ b.deps) (m : Bool) {h₁ h₂ : FHeap} {P : BV → Prop}
    (hP : ∀ b ∈ t, ∀ d ∈ b.deps, P d) (hs : ∀ v, P v → Pyadjoint.saved h₁ v = Pyadjoint.saved h₂ v)
    (hm : ∀ v, P v → (h₁ v).marked = (h₂ v).marked) (ht : ∀ v, P v → (h₁ v).tlm = (h₂ v).tlm) (v : BV) (hv : P v) :
    (t.evaluateTlm m h₁ v).tlm = (t.evaluateTlm m h₂ v).tlm := by
  induction t generalizing h₁ h₂ with
  | nil => exact ht v hv
  | cons b t ih =>
    have hb := hself b List.mem_cons_self
    have hfr : ∀ (h : FHeap) w, ∃ o, b.evaluateTlm m h w = { h w with tlm := o } := by
      intro h w
      rw [b.evaluateTlm_apply m h hb]
      split
      · exact ⟨_, rfl⟩
      · exact ⟨_, rfl⟩
    refine ih (h₁ := b.evaluateTlm m h₁) (h₂ := b.evaluateTlm m h₂) (fun b hb => hself b (List.mem_cons_of_mem _ hb))
      (fun b hb => hP b (List.mem_cons_of_mem _ hb)) (fun w hw => ?_) (fun w hw => ?_) (fun w hw => ?_)
    · obtain ⟨o₁, e₁⟩ := hfr h₁ w
      obtain ⟨o₂, e₂⟩ := hfr h₂ w
      rw [saved_congr (h := b.evaluateTlm m h₁) (h' := h₁) (by rw [e₁]) (by rw [e₁]),
        saved_congr (h := b.evaluateTlm m h₂) (h' := h₂) (by rw [e₂]) (by rw [e₂])]
      exact hs w hw
    · obtain ⟨o₁, e₁⟩ := hfr h₁ w
      obtain ⟨o₂, e₂⟩ := hfr h₂ w
      rw [e₁, e₂]
      exact hm w hw
    · rw [b.evaluateTlm_apply m h₁ hb, b.evaluateTlm_apply m h₂ hb]
      split
      · dsimp only
        rw [hm w hw, ht w hw]
        exact b.tlmNew_congr _ _ _ _ _ _ (fun d hd => hs d (hP b List.mem_cons_self d hd))
          (fun d hd => ht d (hP b List.mem_cons_self d hd))
      · exact ht w hw

theorem seeded_tlm {bs : Blocks V T A} (cs : List BV) (ds : List T) (h₁ h₂ : Heap V T A) {v : BV}
    (hv : OnTape bs v) :
    (seedTlm cs ds (resetVariables bs .tlm h₁) v).tlm = (seedTlm cs ds (resetVariables bs .tlm h₂) v).tlm := by
  classical
  have key : ∀ (l : List (BV × T)) (g₁ g₂ : Heap V T A), (∀ w, OnTape bs w → (g₁ w).tlm = (g₂ w).tlm) →
      (l.foldl (fun h p => Function.update h p.1 { h p.1 with tlm := some p.2 }) g₁ v).tlm =
      (l.foldl (fun h p => Function.update h p.1 { h p.1 with tlm := some p.2 }) g₂ v).tlm := by
    intro l
    induction l with
    | nil => intro g₁ g₂ h; exact h v hv
    | cons p l ih =>
      intro g₁ g₂ h
      refine ih _ _ fun w hw => ?_
      dsimp only
      by_cases e : w = p.1
      · subst e; rw [Function.update_self, Function.update_self]
      · rw [Function.update_of_ne e, Function.update_of_ne e]; exact h w hw
  unfold seedTlm
  refine key _ _ _ fun w hw => ?_
  rw [resetVariables_apply, resetVariables_apply, if_pos hw, if_pos hw]
  rfl

theorem seed_frame (bs : Blocks V T A) (cs : List BV) (ds : List T) (h : Heap V T A) (v : BV) :
    ∃ o, seedTlm cs ds (resetVariables bs .tlm h) v = { h v with tlm := o } := by
  classical
  obtain ⟨o, e⟩ := seedTlm_frame cs ds (resetVariables bs .tlm h) v
  rw [e, resetVariables_apply]
  split
  · exact ⟨o, rfl⟩
  · exact ⟨o, rfl⟩

/-- **C66**, tangents of blocks with the inherited sweep (partial: at the control values of the recording,
`checkpointed_tangent_stale` shows that it fails at others).  After any evaluations at the recorded control values and
any derivatives, `tape.evaluate_tlm` gives the tangents of the tape without checkpointing. -/
theorem checkpointed_tangent_partial [Add T] [Add A] [Zero A] [Mul V] {sch : Schedule} {h : Heap V T A}
    {es : List (Event V T A)} {τ₀ τ : CTape V T A} (hr : Recorded sch h es τ₀) (hrev : sch.Reverses)
    (hf : Faithful h es) {truthy : V → Bool} (hh : Cycles truthy (fun v => (h v).output) τ₀ τ)
    (cs : List BV) (ds : List T) (m : Bool) (v : BV)
    (hv : OnTape (Event.blocks es) v) :
    (evaluateTlm (Event.blocks es) m (seedTlm cs ds (resetVariables (Event.blocks es) .tlm τ.heap)) v).tlm =
      (evaluateTlm (Event.blocks es) m (seedTlm cs ds (resetVariables (Event.blocks es) .tlm h)) v).tlm := by
  have hready := hh.ready hr.wellFormed hrev hr.ssa hf.stable hr.ready
  refine tlm_congr _ m (P := OnTape (Event.blocks es))
    (fun b hb => ⟨fun d hd => ⟨b, hb, Or.inl hd⟩, fun o ho => ⟨b, hb, Or.inr ho⟩⟩)
    (fun w _ => ?_) (fun w _ => ?_) (fun w hw => seeded_tlm cs ds _ _ hw) v hv
  · obtain ⟨o₁, e₁⟩ := seed_frame (Event.blocks es) cs ds τ.heap w
    obtain ⟨o₂, e₂⟩ := seed_frame (Event.blocks es) cs ds h w
    rw [saved_congr (h' := τ.heap) (by rw [e₁]) (by rw [e₁]), hready.saved w]
    rw [saved_congr (h' := h) (by rw [e₂]) (by rw [e₂])]
    unfold Pyadjoint.saved
    rw [(hr.unused w).1]
  · obtain ⟨o₁, e₁⟩ := seed_frame (Event.blocks es) cs ds τ.heap w
    obtain ⟨o₂, e₂⟩ := seed_frame (Event.blocks es) cs ds h w
    rw [e₁, e₂]
    exact (hready.marks w).trans (hr.unused w).2.2.1.symm

/-- **C66**, tangents of `AdjFloat` operations (partial in the same way). -/
theorem checkpointed_float_tangent_partial {sch : Schedule} {h : FHeap} {es : List (Event ℝ ℝ ℝ)} {t : FTape}
    (ht : Event.blocks es = t.blocks) {τ₀ τ : CTape ℝ ℝ ℝ} (hr : Recorded sch h es τ₀) (hrev : sch.Reverses)
    (hf : Faithful h es) {truthy : ℝ → Bool} (hh : Cycles truthy (fun v => (h v).output) τ₀ τ)
    (cs : List BV) (ds : List ℝ) (m : Bool) (v : BV) (hv : OnTape t.blocks v) :
    (t.evaluateTlm m (seedTlm cs ds (resetVariables t.blocks .tlm τ.heap)) v).tlm =
      (t.evaluateTlm m (seedTlm cs ds (resetVariables t.blocks .tlm h)) v).tlm := by
  have hready := hh.ready hr.wellFormed hrev hr.ssa hf.stable hr.ready
  have wf : WF t.blocks := ht ▸ hr.ssa
  refine ftlm_congr t (FTape.WF_self wf) m (P := OnTape t.blocks)
    (fun b hb d hd => ⟨b.toBlock, List.mem_map.2 ⟨b, hb, rfl⟩, Or.inl (by rw [b.toBlock_deps]; exact hd)⟩)
    (fun w _ => ?_) (fun w _ => ?_) (fun w hw => seeded_tlm cs ds _ _ hw) v hv
  · obtain ⟨o₁, e₁⟩ := seed_frame t.blocks cs ds τ.heap w
    obtain ⟨o₂, e₂⟩ := seed_frame t.blocks cs ds h w
    rw [saved_congr (h' := τ.heap) (by rw [e₁]) (by rw [e₁]), hready.saved w]
    rw [saved_congr (h' := h) (by rw [e₂]) (by rw [e₂])]
    unfold Pyadjoint.saved
    rw [(hr.unused w).1]
  · obtain ⟨o₁, e₁⟩ := seed_frame t.blocks cs ds τ.heap w
    obtain ⟨o₂, e₂⟩ := seed_frame t.blocks cs ds h w
    rw [e₁, e₂]
    exact (hready.marks w).trans (hr.unused w).2.2.1.symm

/-! ### Refutations -/

/-- The tangent of `J` in direction `1` after an evaluation at `x`. -/
def tangentAfter (bs : Blocks Int Int Int) (J : BV) (x : Int) (τ : CTape Int Int Int) : Option (Int × Option Int) :=
  match rfCall (fun x => x != 0) J [0] 1 [x] τ with
  | .error _ => none
  | .ok (y, τ) => some (y, (evaluateTlm bs false (seedTlm [0] [1] (resetVariables bs .tlm τ.heap)) J).tlm)

/-- **C66 fails for tangents after an evaluation at other values**: the evaluation has forgotten the intermediate values,
so that the tangent uses the recorded ones.  `J(x) = x⁴` recorded at `2` and evaluated at `3` has tangent
`48` instead of `108`. -/
theorem checkpointed_tangent_stale :
    ∃ (sch : Schedule) (h : Heap Int Int Int) (es : List (Event Int Int Int)) (τ : CTape Int Int Int),
      Recorded sch h es τ ∧ sch.Reverses ∧ τ.mgr.mode ≠ .record ∧
      (evaluateTlm (Event.blocks es) false (seedTlm [0] [1]
        (resetVariables (Event.blocks es) .tlm (rfEval (Event.blocks es) [0] [3] h))) 2).tlm = some 108 ∧
      tangentAfter (Event.blocks es) 2 3 τ = some (81, some 48) := by
  refine ⟨multistage2, freshHeap [2, 4, 16], exPower, _,
    recorded_of multistage2_wellFormed exPower_wf (by decide +kernel), multistage2_reverses, by decide +kernel,
    by decide +kernel, by decide +kernel⟩

/-- `o := d²` by a block of the user whose second derivative adds up the terms that are there (example data). -/
def sqBlk (d o : BV) : Block Int Int Int where
  deps := [d]
  outs := [o]
  recomputeC := fun xs _ => some (xs.getD 0 0 * xs.getD 0 0)
  adjC := fun xs as _ => (as.getD 0 none).map (2 * xs.getD 0 0 * ·)
  tlmC := fun xs ts _ => (ts.getD 0 none).map (2 * xs.getD 0 0 * ·)
  hessC := fun xs hs as _ ts => some (2 * xs.getD 0 0 * ((hs.getD 0 none).getD 0) +
    2 * ((as.getD 0 none).getD 0) * (((ts.getD 0 (0, none)).2).getD 0))

/-- `v₁ := v₀²; v₂ := v₁²`, one operation in each of two steps (example data). -/
def exSquares : List (Event Int Int Int) :=
  [.block (sqBlk 0 1), .endTimestep, .block (sqBlk 1 2), .endTimestep]

theorem exSquares_wf : WF (Event.blocks exSquares) := by
  refine ⟨?_, ?_, ?_⟩ <;> decide

/-- The Hessian in direction `1` after a derivative. -/
def hessianAfter (bs : Blocks Int Int Int) (J : BV) (τ : CTape Int Int Int) : Option (List Int × List Int) :=
  match rfDerivative J [0] 1 τ with
  | .error _ => none
  | .ok (g, τ) => some (g, (computeHessianOf bs J [0] [1] τ.heap).1)

/-- **C66 fails silently for other blocks.**  With blocks that treat a missing adjoint value as zero, the Hessian of
`J(x) = x⁴` at the recorded `x = 2` is `0` instead of `48`; nothing is raised, and the gradient is right. -/
theorem checkpointed_hessian_silent :
    ∃ (sch : Schedule) (h : Heap Int Int Int) (es : List (Event Int Int Int)) (τ : CTape Int Int Int),
      Recorded sch h es τ ∧ sch.Reverses ∧
      (computeHessianOf (Event.blocks es) 2 [0] [1] (computeGradient (Event.blocks es) 2 [0] 1 h).2).1 = [48] ∧
      hessianAfter (Event.blocks es) 2 τ = some ([32], [0]) := by
  refine ⟨multistage2, freshHeap [2, 4, 16], exSquares, _,
    recorded_of multistage2_wellFormed exSquares_wf (by decide +kernel), multistage2_reverses,
    by decide +kernel, by decide +kernel⟩

/-- `v₁ := v₀ * v₀; v₂ := v₁ * v₁` on `AdjFloat`s, one operation in each of two steps (example data). -/
noncomputable def exFloats : FTape := [.bin .mul 0 0 1, .bin .mul 1 1 2]

noncomputable def exFloatEvents : List (Event ℝ ℝ ℝ) :=
  [.block (FBlock.bin .mul 0 0 1).toBlock, .endTimestep, .block (FBlock.bin .mul 1 1 2).toBlock, .endTimestep]

noncomputable def exFloatHeap : FHeap :=
  fun v => { output := if v = 0 then 3 else if v = 1 then 3 * 3 else (3 * 3) * (3 * 3) }

theorem exFloats_wf : WF exFloats.blocks := by
  refine ⟨?_, ?_, ?_⟩
  · intro b hb
    simp only [FTape.blocks, exFloats, List.map_cons, List.map_nil, List.mem_cons, List.not_mem_nil, or_false] at hb
    rcases hb with rfl | rfl <;> simp [FBlock.toBlock]
  · intro b hb
    simp only [FTape.blocks, exFloats, List.map_cons, List.map_nil, List.mem_cons, List.not_mem_nil, or_false] at hb
    rcases hb with rfl | rfl <;> simp [FBlock.toBlock]
  · simp [FTape.blocks, exFloats, FBlock.toBlock]

noncomputable def emptyFloatTape : CTape ℝ ℝ ℝ where
  heap := fun _ => { output := 0 }
  steps := []
  eager := false
  mgr := { acts := [], maxN := 0, afterFinal := fun _ => [], singleMem := false, exhausted := false,
           current := .endForward, fwd := [], total := none, gcFreq := none }

noncomputable def exFloatTape : CTape ℝ ℝ ℝ := tapeOf emptyFloatTape (record multistage2 exFloatHeap exFloatEvents)

theorem exFloats_recorded : Recorded multistage2 exFloatHeap exFloatEvents exFloatTape := by
  refine ⟨multistage2_wellFormed, fun v => ⟨rfl, rfl, rfl, rfl, rfl⟩, exFloats_wf, none, false, false, ?_⟩
  have h := tapeOf_spec (d := emptyFloatTape) (r := record multistage2 exFloatHeap exFloatEvents) (by decide +kernel)
  unfold exFloatTape
  generalize tapeOf emptyFloatTape _ = τ at h
  unfold record at h
  split at h
  · cases h
  · rename_i τ₀ h₀
    exact ⟨τ₀, by decide, h₀, h⟩

theorem exFloats_faithful : Faithful exFloatHeap exFloatEvents := by
  intro b hb i o ho y hy
  simp only [exFloatEvents, Event.blocks, List.mem_cons, List.not_mem_nil,
    or_false] at hb
  rcases hb with rfl | rfl
  · have ho' : [1][i]? = some o := ho
    rcases i with - | i
    · cases ho'
      cases hy
      simp [exFloatHeap, BOp.val]
    · simp at ho'
  · have ho' : [2][i]? = some o := ho
    rcases i with - | i
    · cases ho'
      cases hy
      simp [exFloatHeap, BOp.val]
    · simp at ho'

def derivativeOk {R : Type*} : Except CkptError R → Bool
  | .error _ => false
  | .ok _ => true

/-- The hypotheses of `checkpointed_hessian_zero`, `checkpointed_hessian_partial`, `checkpointed_hessian_raises` and
`checkpointed_float_tangent_partial` hold together for `exFloats`, and the second derivative there is not zero: `rf.hessian` of
`x⁴` raises on the checkpointed tape. -/
example : ∃ g τ, rfDerivative 2 [0] 1 exFloatTape = .ok (g, τ) ∧
    exFloats.computeHessian 2 [0] [1] τ.heap = .error .typeError := by
  have hok : derivativeOk (rfDerivative 2 [0] 1 exFloatTape) = true := by decide +kernel
  cases hd : rfDerivative 2 [0] 1 exFloatTape with
  | error e => rw [hd] at hok; cases hok
  | ok r =>
    obtain ⟨g, τ⟩ := r
    refine ⟨g, τ, rfl, ?_⟩
    have hH : ∃ hs h', exFloats.computeHessian 2 [0] [1] (computeGradient exFloats.blocks 2 [0] 1 exFloatHeap).2 = .ok (hs, h') ∧
        ∃ x ∈ hs, x ≠ 0 := by
      refine ⟨_, _, rfl, _, List.mem_singleton.2 rfl, ?_⟩
      have : ∀ a t h : ℝ, a = 1 * (3 * 3) + 1 * (3 * 3) → t = 0 + 1 * 3 + 1 * 3 →
          h = 1 * t + 0 * (3 * 3) + (1 * t + 0 * (3 * 3)) → a * 1 + h * 3 + (a * 1 + h * 3) ≠ (0 : ℝ) := by
        rintro a t h rfl rfl rfl
        norm_num
      exact this _ _ _ rfl rfl rfl
    obtain ⟨hs, h', h1, h2⟩ := hH
    refine checkpointed_hessian_raises (t := exFloats) rfl exFloats_recorded multistage2_reverses exFloats_faithful
      (truthy := fun _ => true) (.start _) ?_ ?_ ?_ hd h1 h2
    · intro c hc b hb
      simp only [List.mem_singleton] at hc
      simp only [exFloats, List.mem_cons, List.not_mem_nil, or_false] at hb
      subst hc
      rcases hb with rfl | rfl <;> decide
    · intro c hc
      simp only [List.mem_singleton] at hc
      subst hc
      exact ⟨_, List.mem_cons_self, Or.inl List.mem_cons_self⟩
    · exact ⟨_, List.mem_cons_of_mem _ List.mem_cons_self, Or.inr List.mem_cons_self⟩

/-- The hypotheses of `checkpointed_tangent_partial` hold for `exPower` recorded at `2`: the tangent after a
derivative is `32`. -/
example {g : List Int} {τ : CTape Int Int Int}
    (hd : rfDerivative 2 [0] 1 (tapeOf emptyTape (record multistage2 (freshHeap [2, 4, 16]) exPower)) = .ok (g, τ)) :
    (evaluateTlm (Event.blocks exPower) false (seedTlm [0] [1]
      (resetVariables (Event.blocks exPower) .tlm τ.heap)) 2).tlm = some 32 := by
  have hf : Faithful (freshHeap [2, 4, 16]) exPower := by
    intro b hb i o ho y hy
    simp only [exPower, Event.blocks, List.mem_cons, List.not_mem_nil, or_false] at hb
    rcases hb with rfl | rfl
    · have ho' : [1][i]? = some o := ho
      rcases i with - | i
      · cases ho'
        cases hy
        decide
      · simp at ho'
    · have ho' : [2][i]? = some o := ho
      rcases i with - | i
      · cases ho'
        cases hy
        decide
      · simp at ho'
  have h := checkpointed_tangent_partial (truthy := fun x => x != 0)
    (recorded_of multistage2_wellFormed exPower_wf (by decide +kernel))
    multistage2_reverses hf (.derivative (.start _) hd) [0] [1] false 2
    ⟨_, List.mem_cons_of_mem _ List.mem_cons_self, Or.inr List.mem_cons_self⟩
  rw [h]
  decide +kernel

end CTape
end Pyadjoint
