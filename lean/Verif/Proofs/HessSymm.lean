import Verif.Proofs.Chain
import Verif.Proofs.FloatHess
import Verif.Proofs.FloatTlm
import Mathlib.Analysis.Calculus.FDeriv.Symmetric
import Mathlib.Analysis.SpecialFunctions.Pow.Deriv

/-! Twice continuous differentiability of the replay of an `AdjFloat` tape. -/

namespace Pyadjoint

theorem FTape.replay_un {t : FTape} (wf : WF t.blocks) (cs : List BV) (h : FHeap)
    (hfl : ∀ v, (h v).isControl = false) (x : Fin cs.length → ℝ) {op : UOp} {a o : BV}
    (hb : FBlock.un op a o ∈ t) (ho : o ∉ cs) :
    saved (rfEval t.blocks cs (List.ofFn x) h) o
      = op.val (saved (rfEval t.blocks cs (List.ofFn x) h) a) := by
  have := replayVal_block wf cs h hfl x (FBlock.un op a o).toBlock (List.mem_map.2 ⟨_, hb, rfl⟩)
    (by intro o' ho'; rw [FBlock.mem_outs] at ho'; subst ho'; exact ho) (0 : Fin 1)
    (by intro u; rfl)
  exact this

theorem FTape.replay_bin {t : FTape} (wf : WF t.blocks) (cs : List BV) (h : FHeap)
    (hfl : ∀ v, (h v).isControl = false) (x : Fin cs.length → ℝ) {op : BOp} {a b o : BV}
    (hb : FBlock.bin op a b o ∈ t) (ho : o ∉ cs) :
    saved (rfEval t.blocks cs (List.ofFn x) h) o
      = op.val (saved (rfEval t.blocks cs (List.ofFn x) h) a) (saved (rfEval t.blocks cs (List.ofFn x) h) b) := by
  have := replayVal_block wf cs h hfl x (FBlock.bin op a b o).toBlock (List.mem_map.2 ⟨_, hb, rfl⟩)
    (by intro o' ho'; rw [FBlock.mem_outs] at ho'; subst ho'; exact ho) (0 : Fin 1)
    (by intro u; rfl)
  exact this

theorem FTape.contDiffAt {t : FTape} (wf : WF t.blocks) (cs : List BV) (hnd : cs.Nodup) (h : FHeap)
    (hfl : ∀ v, (h v).isControl = false) (x₀ : Fin cs.length → ℝ)
    (hsmooth : ∀ b ∈ t, (∃ d ∈ b.deps, Reach t.blocks (· ∈ cs) d) →
      b.Smooth2 (saved (rfEval t.blocks cs (List.ofFn x₀) h)) (Reach t.blocks (· ∈ cs))) :
    ∀ v, ContDiffAt ℝ 2 (fun x : Fin cs.length → ℝ => saved (rfEval t.blocks cs (List.ofFn x) h) v) x₀ := by
  have hctrl : ∀ v ∈ cs, ContDiffAt ℝ 2
      (fun x : Fin cs.length → ℝ => saved (rfEval t.blocks cs (List.ofFn x) h) v) x₀ := by
    intro v hv
    obtain ⟨i, hi, rfl⟩ := List.getElem_of_mem hv
    have : (fun x : Fin cs.length → ℝ => saved (rfEval t.blocks cs (List.ofFn x) h) cs[i])
        = fun x => x ⟨i, hi⟩ := by
      funext x
      exact replayVal_control t.blocks cs hnd h hfl x ⟨i, hi⟩
    rw [this]
    fun_prop
  have hconst : ∀ v, ¬ Reach t.blocks (· ∈ cs) v → ∀ x,
      saved (rfEval t.blocks cs (List.ofFn x) h) v = saved (rfEval t.blocks cs (List.ofFn x₀) h) v :=
    fun v hv x => replayVal_of_not_reach wf cs h hfl _ _ v hv
  have hnr : ∀ v, ¬ Reach t.blocks (· ∈ cs) v → ContDiffAt ℝ 2
      (fun x : Fin cs.length → ℝ => saved (rfEval t.blocks cs (List.ofFn x) h) v) x₀ := by
    intro v hv
    rw [funext (hconst v hv)]
    exact contDiffAt_const
  apply tape_induction wf (P := fun v => ContDiffAt ℝ 2
    (fun x : Fin cs.length → ℝ => saved (rfEval t.blocks cs (List.ofFn x) h) v) x₀)
  · intro v hv
    by_cases hc : v ∈ cs
    · exact hctrl v hc
    · apply hnr
      intro hr
      cases hr with
      | base hc' => exact hc hc'
      | step hb _ _ ho => exact hv _ hb ho
  · intro b hb ih o ho
    obtain ⟨fb, hfb, rfl⟩ := List.mem_map.1 hb
    rw [fb.mem_outs] at ho
    subst ho
    by_cases hc : fb.out ∈ cs
    · exact hctrl _ hc
    by_cases hd : ∃ d ∈ fb.deps, Reach t.blocks (· ∈ cs) d
    swap
    · apply hnr
      intro hr
      cases hr with
      | base hc' => exact hc hc'
      | step hb' hd' hr' ho' =>
        have := wf.unique_producer hb hb' ((fb.mem_outs _).2 rfl) ho'
        subst this
        rw [fb.toBlock_deps] at hd'
        exact hd ⟨_, hd', hr'⟩
    have hs := hsmooth fb hfb hd
    cases fb with
    | un op a o =>
      have iha := ih a (by simp [FBlock.toBlock])
      simp only [FBlock.out] at hc ⊢
      rw [funext fun x => FTape.replay_un wf cs h hfl x hfb hc]
      cases op
      case neg => exact iha.neg
      case exp => exact iha.exp
      case log => exact iha.log (ne_of_gt hs)
    | bin op a b o =>
      have iha := ih a (by simp [FBlock.toBlock])
      have ihb := ih b (by simp [FBlock.toBlock])
      simp only [FBlock.out] at hc ⊢
      rw [funext fun x => FTape.replay_bin wf cs h hfl x hfb hc]
      cases op
      case add => exact iha.add ihb
      case sub => exact iha.sub ihb
      case mul => exact iha.mul ihb
      case div => exact iha.div ihb hs
      case pow =>
        rcases hs with hs | ⟨h1, n, h2, h3⟩
        · exact iha.rpow ihb hs.ne'
        · simp only [BOp.val, hconst b h1, h2]
          rcases h3 with h3 | h3
          · exact iha.rpow_const_of_ne h3
          · refine ContDiffAt.rpow_const_of_le (m := 2) iha ?_
            exact_mod_cast h3
      case min =>
        have hs : saved (rfEval t.blocks cs (List.ofFn x₀) h) a ≠ saved (rfEval t.blocks cs (List.ofFn x₀) h) b := hs
        rcases lt_or_gt_of_ne hs with hlt | hlt
        · refine iha.congr_of_eventuallyEq ?_
          filter_upwards [(ihb.continuousAt.sub iha.continuousAt).eventually (lt_mem_nhds (sub_pos.2 hlt))] with x hx
          exact if_neg (not_lt.2 (sub_pos.1 hx).le)
        · refine ihb.congr_of_eventuallyEq ?_
          filter_upwards [(iha.continuousAt.sub ihb.continuousAt).eventually (lt_mem_nhds (sub_pos.2 hlt))] with x hx
          exact if_pos (sub_pos.1 hx)
      case max =>
        have hs : saved (rfEval t.blocks cs (List.ofFn x₀) h) a ≠ saved (rfEval t.blocks cs (List.ofFn x₀) h) b := hs
        rcases lt_or_gt_of_ne hs with hlt | hlt
        · refine ihb.congr_of_eventuallyEq ?_
          filter_upwards [(ihb.continuousAt.sub iha.continuousAt).eventually (lt_mem_nhds (sub_pos.2 hlt))] with x hx
          exact if_pos (sub_pos.1 hx)
        · refine iha.congr_of_eventuallyEq ?_
          filter_upwards [(iha.continuousAt.sub ihb.continuousAt).eventually (lt_mem_nhds (sub_pos.2 hlt))] with x hx
          exact if_neg (not_lt.2 (sub_pos.1 hx).le)

end Pyadjoint
