import Verif.Model.TapeCopy
import Verif.Proofs.CkptQuiet
import Verif.Props.CheckpointGradient
import Verif.Props.CheckpointStored
import Verif.Props.HistoryBlocks

/-!
# C82: a copy of a checkpointed tape

The copy works without checkpointing on the block variables of the original.  Whatever was done on both tapes before, an evaluation on the copy gives the value
of the recorded program, and a derivative after it the derivative (`copy_value_and_gradient`); the original can still be evaluated after any use of the copy
(`value_after_copies_partial`).  A derivative on the copy that does not follow an evaluation on it finds the values that checkpointing has cleared
(`copy_derivative_stale`).
-/

namespace Pyadjoint

variable {V T A : Type*}

/-! ## Runs are determined by the values of the controls -/

/-- There is one run of the recorded operations for given values of the controls. -/
theorem IsRun.unique {bs : Blocks V T A} (wf : WF bs) {cs : List BV} {xs : List V} (hlen : xs.length = cs.length) {out val val' : BV → V}
    (hrun : IsRun bs cs xs out val) (hrun' : IsRun bs cs xs out val') : ∀ v, val v = val' v := by
  suffices h : ∀ n v, (∀ (k : Nat) (b : Block V T A), bs[k]? = some b → v ∈ b.outs → k < n) → val v = val' v from
    fun v => h bs.length v (fun k b hb _ => (List.getElem?_eq_some_iff.1 hb).1)
  intro n
  induction n with
  | zero =>
    intro v hv
    by_cases hc : v ∈ cs
    · obtain ⟨i, hi, rfl⟩ := List.mem_iff_getElem.1 hc
      have hx := List.getElem?_eq_getElem (hlen ▸ hi : i < xs.length)
      rw [hrun.control i _ _ (List.getElem?_eq_getElem hi) hx, hrun'.control i _ _ (List.getElem?_eq_getElem hi) hx]
    · have ho : ∀ b ∈ bs, v ∉ b.outs := fun b hb ho => by
        obtain ⟨k, hk⟩ := List.mem_iff_getElem?.1 hb
        exact absurd (hv k b hk ho) (Nat.not_lt_zero _)
      rw [hrun.input v hc ho, hrun'.input v hc ho]
  | succ n ih =>
    intro v hv
    by_cases hex : ∃ b, bs[n]? = some b ∧ v ∈ b.outs
    · obtain ⟨b, hb, ho⟩ := hex
      obtain ⟨hn, hbn⟩ := List.getElem?_eq_some_iff.1 hb
      have hbm := List.mem_of_getElem? hb
      obtain ⟨i, hi⟩ := List.mem_iff_getElem?.1 ho
      have e := hrun.block b hbm i v hi
      rw [List.map_congr_left (g := val') (fun d hd => ?_), hrun'.block b hbm i v hi] at e
      · exact (Option.some.inj e).symm
      · refine ih d (fun k b' hb' ho' => ?_)
        obtain ⟨hk, hbk⟩ := List.getElem?_eq_some_iff.1 hb'
        by_contra hlt
        rcases Nat.lt_or_eq_of_le (Nat.le_of_not_lt hlt) with hlt | rfl
        · exact (hbn ▸ hbk ▸ (List.pairwise_iff_getElem.1 wf.later n k hn hk hlt).1 : ∀ d ∈ b.deps, d ∉ b'.outs) d hd ho'
        · rw [hb] at hb'; cases hb'
          exact wf.self b hbm d hd ho'
    · refine ih v (fun k b hb ho => ?_)
      have := hv k b hb ho
      rcases Nat.lt_or_eq_of_le (Nat.le_of_lt_succ this) with h | rfl
      · exact h
      · exact absurd ⟨b, hb, ho⟩ hex

namespace CTape

/-- An evaluation without checkpointing is a run, wherever the inputs that are not controls have their recorded values. -/
theorem rfEval_isRun_of {bs : Blocks V T A} (wf : WF bs) {cs : List BV} {xs : List V} {h : Heap V T A} {out : BV → V}
    (hin : ∀ v, Input bs cs v → saved h v = out v) (hfl : ∀ v, (h v).isControl = false) (hcs : cs.Nodup) (hinputs : ∀ c ∈ cs, ∀ b ∈ bs, c ∉ b.outs)
    (htotal : ∀ b ∈ bs, ∀ ys (i : Nat), ys.length = b.deps.length → i < b.outs.length → (b.recomputeC ys i).isSome) (hlen : xs.length = cs.length) :
    IsRun bs cs xs out (saved (rfEval bs cs xs h)) := by
  refine ⟨?_, ?_, ?_⟩
  · intro i c x h1 h2
    obtain ⟨hi, rfl⟩ := List.getElem?_eq_some_iff.1 h1
    obtain ⟨hi', rfl⟩ := List.getElem?_eq_some_iff.1 h2
    unfold saved
    rw [rfEval_control _ _ _ _ hcs hlen (fun c _ => hfl c) i hi]
  · intro v hv ho
    rw [← hin v ⟨hv, ho⟩]
    unfold saved
    rw [rfEval_leaf _ _ _ _ _ hv ho]
  · intro b hb i o ho
    obtain ⟨hi, rfl⟩ := List.getElem?_eq_some_iff.1 ho
    have e := rfEval_block wf cs xs h hfl b hb (fun o ho hoc => hinputs o hoc b hb ho) i hi
    obtain ⟨y, hy⟩ := Option.isSome_iff_exists.1 (htotal b hb (b.deps.map (saved (rfEval bs cs xs h))) i (by simp) hi)
    rw [hy] at e ⊢
    conv_rhs => unfold saved
    rw [e]
    rfl

/-! ## Marks -/

theorem finishTaping_marked {P : BV → Prop} {out : BV → V} {sch : Schedule} (hwf : sch.WellFormed)
    {bs : Blocks V T A} {τ τ' : CTape V T A} (h : Taped P out sch bs τ ∨ (τ.mgr.mode ≠ .record ∧ ∃ N, Core P out N bs τ))
    (hf : finishTaping τ = .ok τ') (v : BV) : (τ'.heap v).marked = (τ.heap v).marked := by
  obtain ⟨-, -, -, c3⟩ := finishTaping_core hwf h hf
  obtain ⟨c, e⟩ := c3 v
  rw [e]

theorem rfCall_marks [Add A] [Mul V] {P : BV → Prop} {out : BV → V} {sch : Schedule} (hwf : sch.WellFormed) {bs : Blocks V T A}
    {truthy : V → Bool} {J : BV} {cs : List BV} (hP : ∀ v, P v → v ∉ cs) {scale : V} {xs : List V} {τ τ' : CTape V T A} {y : V}
    (h : Alive P out sch bs τ) (hr : rfCall truthy J cs scale xs τ = .ok (y, τ')) (v : BV) : (τ'.heap v).marked = (τ.heap v).marked := by
  unfold rfCall at hr
  dsimp only at hr
  split at hr
  · cases hr
  · rename_i τ₂ h₂
    simp only [Except.ok.injEq, Prod.mk.injEq] at hr
    obtain ⟨-, rfl⟩ := hr
    unfold recomputeTape at h₂
    split at h₂
    · cases h₂
    · rename_i τ₁ h₁
      have hs := forwardSweep_clean P out h₂
      have e1 : (markControls cs false τ₂.heap v).marked = (τ₂.heap v).marked := by
        rw [markControls_apply]; split <;> rfl
      show (markControls cs false τ₂.heap v).marked = _
      rw [e1, hs.1.marked]
      show (τ₁.heap v).marked = _
      rw [finishTaping_marked hwf (onHeap_state (heapOK_call hP xs τ.heap) h.state) h₁]
      show (markControls cs true (updateControls cs xs τ.heap) v).marked = _
      obtain ⟨c, e⟩ := updateControls_frame cs xs τ.heap v
      rw [markControls_apply]
      split <;> rw [e]

theorem rfDerivative_marks [Add A] [Zero A] {P : BV → Prop} {out : BV → V} {sch : Schedule} (hwf : sch.WellFormed) {bs : Blocks V T A}
    {J : BV} {cs : List BV} {a : A} {τ τ' : CTape V T A} {ds : List A} (h : Alive P out sch bs τ)
    (hm : ∀ v, (τ.heap v).marked = false) (hr : rfDerivative J cs a τ = .ok (ds, τ')) (v : BV) : (τ'.heap v).marked = false := by
  unfold rfDerivative at hr
  split at hr
  · cases hr
  · rename_i τ₃ h₃
    simp only [Except.ok.injEq, Prod.mk.injEq] at hr
    obtain ⟨-, rfl⟩ := hr
    unfold evaluateAdjTape at h₃
    split at h₃
    · cases h₃
    · rename_i τ₁ h₁
      split at h₃
      · cases h₃
      · split at h₃
        · cases h₃
        · rename_i τ₂ h₂
          cases h₃
          have hs := reverseSweep_clean P out h₂
          show (unmark cs τ.blocks τ₂.heap v).marked = false
          unfold unmark
          rw [markAll_apply]
          split
          · rfl
          · rename_i hv
            have e1 : (markControls cs false τ₂.heap v).marked = (τ₂.heap v).marked := by
              rw [markControls_apply]; split <;> rfl
            rw [e1, hs.1.marked, finishTaping_marked hwf (onHeap_state (heapOK_seed P J cs a τ.blocks τ.heap) h.state) h₁]
            show (seedAdjoint J cs a τ.blocks τ.heap v).marked = false
            unfold seedAdjoint
            dsimp only
            rw [markControls_apply, markAll_apply, if_neg hv]
            have e2 : (resetVariables τ.blocks .adjoint τ.heap v).marked = false := by
              classical
              rw [resetVariables_apply]
              split <;> exact hm v
            by_cases hJ : v = J
            · subst hJ
              rw [Function.update_self]
              split <;> exact e2
            · rw [Function.update_of_ne hJ]
              split <;> exact e2

/-! ## Use of both tapes -/

/-- What the user may do with reduced functionals with the controls `cs` on a recorded tape and on copies of it, in any order. -/
inductive CopyHistory [Add A] [Zero A] [Mul V] (truthy : V → Bool) (cs : List BV) : CTape V T A → CTape V T A → Prop
  | start (τ) : CopyHistory truthy cs τ τ
  | call {τ₀ τ τ' : CTape V T A} {J scale xs y} (h : CopyHistory truthy cs τ₀ τ)
      (hr : rfCall truthy J cs scale xs τ = .ok (y, τ')) : CopyHistory truthy cs τ₀ τ'
  | derivative {τ₀ τ τ' : CTape V T A} {J a ds} (h : CopyHistory truthy cs τ₀ τ)
      (hr : rfDerivative J cs a τ = .ok (ds, τ')) : CopyHistory truthy cs τ₀ τ'
  | copyCall {τ₀ τ : CTape V T A} {J scale xs} (h : CopyHistory truthy cs τ₀ τ) : CopyHistory truthy cs τ₀ (copyCall J cs scale xs τ).2
  | copyDerivative {τ₀ τ : CTape V T A} {J a} (h : CopyHistory truthy cs τ₀ τ) : CopyHistory truthy cs τ₀ (copyDerivative J cs a τ).2

theorem Alive.blocks {P : BV → Prop} {out : BV → V} {sch : Schedule} {bs : Blocks V T A} {τ : CTape V T A} (h : Alive P out sch bs τ) :
    τ.blocks = bs := by
  rcases h.state with h | ⟨-, N, h⟩
  · exact h.blocks
  · exact h.blocks

theorem Alive.clean {P : BV → Prop} {out : BV → V} {sch : Schedule} {bs : Blocks V T A} {τ : CTape V T A}
    (h : Alive P out sch bs τ) : Clean P out τ := by
  rcases h.state with h | ⟨-, N, h⟩
  · exact h.clean
  · exact h.clean

theorem CopyHistory.alive [Add A] [Zero A] [Mul V] {out : BV → V} {sch : Schedule} (hwf : sch.WellFormed) {bs : Blocks V T A}
    {truthy : V → Bool} {cs : List BV} {τ τ' : CTape V T A} (hh : CopyHistory truthy cs τ τ')
    (h : Alive (Input bs cs) out sch bs τ) (hm : ∀ v, (τ.heap v).marked = false) :
    Alive (Input bs cs) out sch bs τ' ∧ ∀ v, (τ'.heap v).marked = false := by
  have hst := stable_input bs cs out
  induction hh with
  | start => exact ⟨h, hm⟩
  | call _ hr ih => exact ⟨(rfCall_alive hwf hst (fun v hv => hv.1) ih.1 hr).1, fun v => (rfCall_marks hwf (fun v hv => hv.1) ih.1 hr v).trans (ih.2 v)⟩
  | derivative _ hr ih => exact ⟨(rfDerivative_alive hwf hst ih.1 hr).1, rfDerivative_marks hwf ih.1 ih.2 hr⟩
  | @copyCall τ J scale xs _ ih =>
    obtain ⟨ih, im⟩ := ih
    have fr := fun v => rfEval_frame τ.blocks cs xs τ.heap v (fun c _ => ih.flags c)
    have hok : HeapOK (Input bs cs) (rfEval τ.blocks cs xs) τ.heap := by
      refine ⟨fun v => ?_, fun v hv => ?_, fun v => ?_, fun v => ?_⟩
      · obtain ⟨c, e⟩ := fr v; rw [e]
      · rw [rfEval_leaf _ _ _ _ _ hv.1 (by rw [ih.blocks]; exact hv.2)]
      · obtain ⟨c, e⟩ := fr v; rw [e]
      · obtain ⟨c, e⟩ := fr v; rw [e]
    refine ⟨⟨onHeap_state hok ih.state, fun v => ?_⟩, fun v => ?_⟩
    · obtain ⟨c, e⟩ := fr v
      show (rfEval τ.blocks cs xs τ.heap v).isControl = false
      rw [e]; exact ih.flags v
    · obtain ⟨c, e⟩ := fr v
      show (rfEval τ.blocks cs xs τ.heap v).marked = false
      rw [e]; exact im v
  | @copyDerivative τ J a _ ih =>
    obtain ⟨ih, im⟩ := ih
    have fr := fun v => computeGradientState_adj_frame τ.blocks J cs a τ.heap ih.flags im v
    have hok : HeapOK (Input bs cs) (computeGradientState τ.blocks J cs a) τ.heap := by
      refine ⟨fun v => ?_, fun v hv => ?_, fun v => ?_, fun v => ?_⟩ <;> (obtain ⟨c, e⟩ := fr v; rw [e])
    refine ⟨⟨onHeap_state hok ih.state, fun v => ?_⟩, fun v => ?_⟩
    · obtain ⟨c, e⟩ := fr v
      show (computeGradientState τ.blocks J cs a τ.heap v).isControl = false
      rw [e]; exact ih.flags v
    · obtain ⟨c, e⟩ := fr v
      show (computeGradientState τ.blocks J cs a τ.heap v).marked = false
      rw [e]; exact im v

/-! ## The theorems -/

/-- **C82, on the copy.** Whatever was evaluated and differentiated before on the checkpointed tape and on copies of it, for every schedule, and also while the
recording has not been ended: an evaluation on a copy gives every variable of the tape its value without checkpointing, returns that value of the functional,
and a derivative on the copy after it is the derivative without checkpointing. -/
theorem copy_value_and_gradient [Add A] [Zero A] [Mul V] {sch : Schedule} {h : Heap V T A} {es : List (Event V T A)} {τ₀ τ : CTape V T A}
    (hr : Recorded sch h es τ₀) {truthy : V → Bool} {cs : List BV} (hh : CopyHistory truthy cs τ₀ τ)
    (hcs : cs.Nodup) (hinputs : ∀ c ∈ cs, ∀ b ∈ Event.blocks es, c ∉ b.outs)
    (htotal : ∀ b ∈ Event.blocks es, ∀ ys (i : Nat), ys.length = b.deps.length → i < b.outs.length → (b.recomputeC ys i).isSome)
    (J : BV) (scale : V) {xs : List V} (hlen : xs.length = cs.length) :
    let r := copyCall J cs scale xs τ
    (∀ v, saved r.2.heap v = saved (rfEval (Event.blocks es) cs xs h) v) ∧
    r.1 = saved (rfEval (Event.blocks es) cs xs h) J * scale ∧
    ∀ (J' : BV) (a : A), (∀ c ∈ cs, OnTape (Event.blocks es) c) →
      (copyDerivative J' cs a r.2).1 = (computeGradient (Event.blocks es) J' cs a (rfEval (Event.blocks es) cs xs h)).1 := by
  intro r
  obtain ⟨hal, hm⟩ := hh.alive hr.wellFormed (hr.alive (Input (Event.blocks es) cs)) hr.usable.marks
  have hbl := hal.blocks
  have hfl : ∀ v, (h v).isControl = false := fun v => (hr.unused v).2.1
  have hmk : ∀ v, (h v).marked = false := fun v => (hr.unused v).2.2.1
  have run : IsRun (Event.blocks es) cs xs (fun v => (h v).output) (saved (rfEval (Event.blocks es) cs xs τ.heap)) :=
    rfEval_isRun_of hr.ssa (fun v hv => hal.clean.cleanHeap.saved hv) hal.flags hcs hinputs htotal hlen
  have run₀ : IsRun (Event.blocks es) cs xs (fun v => (h v).output) (saved (rfEval (Event.blocks es) cs xs h)) :=
    rfEval_isRun hr.ssa (fun v => ⟨(hr.unused v).1, hfl v⟩) hcs hinputs htotal hlen
  have hsv : ∀ v, saved r.2.heap v = saved (rfEval (Event.blocks es) cs xs h) v := by
    intro v
    show saved (rfEval τ.blocks cs xs τ.heap) v = _
    rw [hbl]
    exact run.unique hr.ssa hlen run₀ v
  refine ⟨hsv, ?_, fun J' a hon => ?_⟩
  · show saved r.2.heap J * scale = _
    rw [hsv]
  · have hbl' : r.2.blocks = Event.blocks es := hbl
    have marks : ∀ (g : Heap V T A), (∀ v, (g v).isControl = false) → (∀ v, (g v).marked = false) → ∀ v, (rfEval (Event.blocks es) cs xs g v).marked = false := by
      intro g hg hg' v
      obtain ⟨c, e⟩ := rfEval_frame (Event.blocks es) cs xs g v (fun c _ => hg c)
      rw [e]; exact hg' v
    have hm' : ∀ v, (r.2.heap v).marked = false := by
      show ∀ v, (rfEval τ.blocks cs xs τ.heap v).marked = false
      rw [hbl]
      exact marks _ hal.flags hm
    have sim := SimA.computeGradientState (Event.blocks es) J' cs a (h₁ := r.2.heap) (h₂ := rfEval (Event.blocks es) cs xs h) (fun v _ => hsv v)
      (fun v _ => (hm' v).trans (marks h hfl hmk v).symm)
    show (computeGradient r.2.blocks J' cs a r.2.heap).1 = _
    rw [hbl']
    unfold computeGradient
    apply List.map_congr_left
    intro c hc
    unfold getDerivative
    rw [sim.adj c (hon c hc)]

/-- **C82, on the original** (partial: the hypotheses `hmode` and `htruthy` of `checkpointed_value_partial` remain, and the derivatives of the original are those
of C26).  Whatever copies of the tape were evaluated and differentiated, evaluating the original gives the value of the functional at the new controls. -/
theorem value_after_copies_partial [Add A] [Zero A] [Mul V] {sch : Schedule} {h : Heap V T A} {es : List (Event V T A)} {τ₀ τ : CTape V T A}
    (hr : Recorded sch h es τ₀) {truthy : V → Bool} {cs : List BV} (hh : CopyHistory truthy cs τ₀ τ) (hmode : τ.mgr.mode ≠ .record)
    (hcs : cs.Nodup) (hinputs : ∀ c ∈ cs, ∀ b ∈ Event.blocks es, c ∉ b.outs)
    {J : BV} (htruthy : truthy (h J).output = true) (scale : V) {xs : List V} (hlen : xs.length = cs.length)
    {val : BV → V} (hrun : IsRun (Event.blocks es) cs xs (fun v => (h v).output) val) :
    ∃ τ', rfCall truthy J cs scale xs τ = .ok (val J * scale, τ') := by
  have hst := stable_input (Event.blocks es) cs (fun v => (h v).output)
  obtain ⟨hal, -⟩ := hh.alive hr.wellFormed (hr.alive (Input (Event.blocks es) cs)) hr.usable.marks
  obtain ⟨N, hc⟩ : ∃ N, Core (Input (Event.blocks es) cs) (fun v => (h v).output) N (Event.blocks es) τ := by
    rcases hal.state with ht | ⟨-, hc⟩
    · exact ⟨_, (ht.core (Or.inl ⟨ht.track.mode.resolve_left hmode, rfl⟩) hr.wellFormed).1⟩
    · exact hc
  refine hc.value hal.flags hmode hst hcs (fun v hv => hv.1) hinputs htruthy scale hlen hrun.control (fun v hv => hrun.input v hv.1 hv.2) hrun.block
    (fun s hs v hv => ?_) fun hJ => ?_
  · have := hc.live.init s hs v hv
    rw [hc.blocks] at this
    exact (em (v ∈ cs)).imp_right fun h => ⟨h, this⟩
  · exact (em (J ∈ cs)).imp_right fun h => ⟨h, hJ⟩

/-! ### The theorems apply -/

/-- The tape of `J(x) = x⁴`, recorded at `x = 2` under multistage checkpointing. -/
def exCopied : CTape Int Int Int := tapeOf emptyTape (record multistage2 (freshHeap [2, 4, 16]) exPower)

/-- The tape after a successful evaluation. -/
def afterCall : Except CkptError (Int × CTape Int Int Int) → CTape Int Int Int
  | .error _ => emptyTape
  | .ok r => r.2

/-- `exCopied` after `rf(3)` on the original and then `rf'(5)` and a derivative on a copy. -/
def exUsed : CTape Int Int Int :=
  (copyDerivative 2 [0] 1 (copyCall 2 [0] 1 [5] (afterCall (rfCall (fun x => x != 0) 2 [0] 1 [3] exCopied))).2).2

theorem exUsed_history : CopyHistory (fun x => x != 0) [0] exCopied exUsed := by
  have h : rfCall (fun x => x != 0) 2 [0] 1 [3] exCopied = .ok (81, afterCall (rfCall (fun x => x != 0) 2 [0] 1 [3] exCopied)) := by
    have e : returned (rfCall (fun x => x != 0) 2 [0] 1 [3] exCopied) = some 81 := by decide +kernel
    generalize rfCall (fun x => x != 0) 2 [0] 1 [3] exCopied = r at e
    cases r with
    | error _ => cases e
    | ok r =>
      have e : some r.1 = some 81 := e
      obtain ⟨y, t⟩ := r
      cases e
      rfl
  exact .copyDerivative (.copyCall (.call (.start _) h))

theorem exCopied_recorded : Recorded multistage2 (freshHeap [2, 4, 16]) exPower exCopied :=
  recorded_of (out := [2, 4, 16]) multistage2_wellFormed exPower_wf (by decide +kernel)

/-- On the copy, `J(3) = 81` and `J'(3) = 108`, after all that. -/
example : (copyCall 2 [0] 1 [3] exUsed).1 = 81 ∧ (copyDerivative 2 [0] 1 (copyCall 2 [0] 1 [3] exUsed).2).1 = [108] := by
  obtain ⟨-, h1, h2⟩ := copy_value_and_gradient exCopied_recorded exUsed_history (by simp) (by simp [exPower, Event.blocks, mulBlk])
    (by
      intro b hb ys i hy hi
      simp only [exPower, Event.blocks, List.mem_cons, List.not_mem_nil, or_false] at hb
      rcases hb with rfl | rfl <;>
      · cases i with
        | zero => match ys, hy with
          | [x, y], _ => rfl
        | succ i => simp [mulBlk] at hi) 2 1 (xs := [3]) rfl
  refine ⟨h1.trans (by decide +kernel), (h2 2 1 fun c hc => ?_).trans (by decide +kernel)⟩
  simp only [List.mem_singleton] at hc
  subst hc
  exact ⟨mulBlk 0 0 1, by simp [exPower, Event.blocks], Or.inl (by simp [mulBlk])⟩

/-- On the original, `J(4) = 256`. -/
example : returned (rfCall (fun x => x != 0) 2 [0] 1 [4] exUsed) = some 256 := by
  obtain ⟨τ', h⟩ := value_after_copies_partial exCopied_recorded exUsed_history (by decide +kernel) (by simp) (by simp [exPower, Event.blocks, mulBlk])
    (J := 2) (by decide) 1 (xs := [4]) rfl (exLate_run 4 [2, 4, 16])
  rw [h]
  rfl

/-- **C82 fails for a derivative on the copy without an evaluation on it before.** `J(x) = x⁴` is evaluated at `x = 3` on the checkpointed original, which gives
81.  Without checkpointing the derivative that follows is 108, on the tape as on a copy of it.  The copy of the checkpointed tape has no manager that recomputes
what was cleared, so its blocks read the recorded values. -/
theorem copy_derivative_stale :
    ∃ (sch : Schedule) (h : Heap Int Int Int) (es : List (Event Int Int Int)) (τ : CTape Int Int Int), Recorded sch h es τ ∧ sch.Reverses ∧
      returned (rfCall (fun x => x != 0) 2 [0] 1 [3] τ) = some 81 ∧
      (computeGradient (Event.blocks es) 2 [0] 1 (rfEval (Event.blocks es) [0] [3] h)).1 = [108] ∧
      (copyDerivative 2 [0] 1 (afterCall (rfCall (fun x => x != 0) 2 [0] 1 [3] τ))).1 = [48] :=
  ⟨multistage2, freshHeap [2, 4, 16], exPower, exCopied, exCopied_recorded, multistage2_reverses, by decide +kernel, by decide +kernel, by decide +kernel⟩

end CTape
end Pyadjoint
