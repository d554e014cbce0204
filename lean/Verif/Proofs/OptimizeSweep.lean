import Verif.Proofs.Optimize
import Verif.Proofs.Replay

/-! Sweeps over a tape from which blocks have been dropped. -/

namespace Pyadjoint

variable {V T A : Type*}

theorem WF.filter {bs : Blocks V T A} (wf : WF bs) (keep : Block V T A → Bool) : WF (bs.filter keep) :=
  ⟨fun b hb => wf.nodup b (List.mem_filter.1 hb).1, fun b hb => wf.self b (List.mem_filter.1 hb).1,
    wf.later.filter keep⟩

/-- An adjoint sweep over the kept blocks leaves the same values on `Q` as one over all, if
the dropped blocks do nothing. -/
theorem evaluateAdj_filter [Add A] (bs : Blocks V T A) (keep : Block V T A → Bool) (m : Bool)
    (Q : BV → Prop) (I : Heap V T A → Prop)
    (hI : ∀ b ∈ bs, ∀ h, I h → I (b.evaluateAdj m h))
    (hdrop : ∀ b ∈ bs, keep b = false → ∀ h, I h → b.evaluateAdj m h = h)
    (hQ : ∀ b ∈ bs, keep b = true → (∀ o ∈ b.outs, Q o))
    (h h' : Heap V T A) (hi : I h) (hs : ∀ b ∈ bs, keep b = true → ∀ d ∈ b.deps, saved h d = saved h' d)
    (hm : ∀ b ∈ bs, keep b = true → ∀ d ∈ b.deps, (h d).marked = (h' d).marked)
    (hq : ∀ v, Q v → (h v).adj = (h' v).adj) :
    I (evaluateAdj bs m h) ∧
      ∀ v, Q v → (evaluateAdj bs m h v).adj = (evaluateAdj (bs.filter keep) m h' v).adj := by
  induction bs with
  | nil => exact ⟨hi, hq⟩
  | cons b bs ih =>
    obtain ⟨ih1, ih2⟩ := ih (fun b hb => hI b (by simp [hb])) (fun b hb => hdrop b (by simp [hb]))
      (fun b hb => hQ b (by simp [hb])) (fun b hb => hs b (by simp [hb])) (fun b hb => hm b (by simp [hb]))
    rw [evaluateAdj_cons]
    refine ⟨hI b (by simp) _ ih1, ?_⟩
    intro v hv
    rw [List.filter_cons]
    cases hk : keep b with
    | false => rw [hdrop b (by simp) hk _ ih1, if_neg (by simp)]; exact ih2 v hv
    | true =>
      rw [if_pos rfl, evaluateAdj_cons, Block.evaluateAdj_apply, Block.evaluateAdj_apply]
      show b.adjAfter m (evaluateAdj bs m h) v = b.adjAfter m (evaluateAdj (bs.filter keep) m h') v
      have f₁ := evaluateAdj_frame bs m h
      have f₂ := evaluateAdj_frame (bs.filter keep) m h'
      generalize evaluateAdj bs m h = g₁ at *
      generalize evaluateAdj (bs.filter keep) m h' = g₂ at *
      have hs' : b.deps.map (saved g₁) = b.deps.map (saved g₂) :=
        List.map_congr_left fun w hw => by
          obtain ⟨a, ha⟩ := f₁ w
          obtain ⟨a', ha'⟩ := f₂ w
          rw [saved_congr (h' := h) (by rw [ha]) (by rw [ha]), hs b (by simp) hk w hw]
          exact (saved_congr (by rw [ha']) (by rw [ha'])).symm
      have ho : b.outs.map (fun o => (g₁ o).adj) = b.outs.map (fun o => (g₂ o).adj) :=
        List.map_congr_left fun o ho => ih2 o (hQ b (by simp) hk o ho)
      unfold Block.adjAfter
      rw [ho, hs', ih2 v hv]
      by_cases hvd : v ∈ b.deps
      · have hmk : (g₁ v).marked = (g₂ v).marked := by
          obtain ⟨a, ha⟩ := f₁ v
          obtain ⟨a', ha'⟩ := f₂ v
          rw [ha, ha']; exact hm b (by simp) hk v hvd
        rw [hmk]
      · rw [entries_nil_of_not_mem hvd]
        simp only [List.foldl_nil, ite_self]

theorem OnTape.of_filter {bs : Blocks V T A} {keep : Block V T A → Bool} {v : BV}
    (h : OnTape (bs.filter keep) v) : OnTape bs v := by
  obtain ⟨b, hb, h⟩ := h
  exact ⟨b, (List.mem_filter.1 hb).1, h⟩

/-- Gradients on the complete and on the pruned tape. -/
theorem gradient_filter [Add A] [Zero A] (bs : Blocks V T A) (keep : Block V T A → Bool)
    (J : BV) (cs : List BV) (seed : A) (h : Heap V T A) (h' : Heap V T A)
    (hadj : ∀ v, (h v).adj = (h' v).adj)
    (hs : ∀ b ∈ bs, keep b = true → ∀ d ∈ b.deps, saved h d = saved h' d)
    (hm : ∀ b ∈ bs, keep b = true → ∀ d ∈ b.deps,
      (d ∈ findRelevantNodes bs cs ↔ d ∈ findRelevantNodes (bs.filter keep) cs))
    (hmark : ∀ v, (h v).marked = (h' v).marked)
    (I : Heap V T A → Prop)
    (hI : ∀ b ∈ bs, ∀ h, I h → I (b.evaluateAdj true h))
    (hdrop : ∀ b ∈ bs, keep b = false → ∀ h, I h → b.evaluateAdj true h = h)
    (hinit : ∀ g : Heap V T A, (∀ v, v ≠ J → OnTape bs v → (g v).adj = none) →
      (∀ v, (g v).marked = true ↔ v ∈ findRelevantNodes bs cs ∨ (h v).marked = true) → I g)
    (hon : ∀ c ∈ cs, OnTape (bs.filter keep) c ∨ c = J ∨ (h c).adj = none) :
    (computeGradient bs J cs seed h).1 = (computeGradient (bs.filter keep) J cs seed h').1 := by
  classical
  have key : ∀ c ∈ cs, (computeGradientState bs J cs seed h c).adj
      = (computeGradientState (bs.filter keep) J cs seed h' c).adj := by
    intro c hc
    unfold computeGradientState markedAdjoint
    simp only [markAll_adj, markControls_adj]
    set nodes := findRelevantNodes bs cs
    set nodes' := findRelevantNodes (bs.filter keep) cs
    set g := Function.update (resetVariables bs .adjoint h) J
      { resetVariables bs .adjoint h J with adj := some seed } with hg
    set g' := Function.update (resetVariables (bs.filter keep) .adjoint h') J
      { resetVariables (bs.filter keep) .adjoint h' J with adj := some seed } with hg'
    have gadj : ∀ v, v ≠ J → (g v).adj = if OnTape bs v then none else (h v).adj := by
      intro v hv
      rw [hg, Function.update_of_ne hv, resetVariables_apply]
      unfold OnTape
      split <;> rfl
    have gadj' : ∀ v, v ≠ J → (g' v).adj = if OnTape (bs.filter keep) v then none else (h' v).adj := by
      intro v hv
      rw [hg', Function.update_of_ne hv, resetVariables_apply]
      unfold OnTape
      split <;> rfl
    have gJ : (g J).adj = some seed := by rw [hg]; simp
    have gJ' : (g' J).adj = some seed := by rw [hg']; simp
    have gframe : ∀ v, (g v).output = (h v).output ∧ (g v).ckpt = (h v).ckpt ∧ (g v).marked = (h v).marked := by
      intro v
      by_cases hv : v = J
      · subst hv; rw [hg]; simp only [Function.update_self]
        rw [resetVariables_apply]; split <;> exact ⟨rfl, rfl, rfl⟩
      · rw [hg, Function.update_of_ne hv, resetVariables_apply]; split <;> exact ⟨rfl, rfl, rfl⟩
    have gframe' : ∀ v, (g' v).output = (h' v).output ∧ (g' v).ckpt = (h' v).ckpt ∧ (g' v).marked = (h' v).marked := by
      intro v
      by_cases hv : v = J
      · subst hv; rw [hg']; simp only [Function.update_self]
        rw [resetVariables_apply]; split <;> exact ⟨rfl, rfl, rfl⟩
      · rw [hg', Function.update_of_ne hv, resetVariables_apply]; split <;> exact ⟨rfl, rfl, rfl⟩
    clear_value g g'
    have hmk : ∀ v, (markControls cs true (markAll nodes true g) v).marked
        = if v ∈ nodes then true else (h v).marked := by
      intro v
      rw [markControls_apply, markAll_apply]
      by_cases hv : v ∈ nodes
      · simp only [hv, if_true]; split <;> rfl
      · simp only [hv, if_false]; split <;> exact (gframe v).2.2
    have hmk' : ∀ v, (markControls cs true (markAll nodes' true g') v).marked
        = if v ∈ nodes' then true else (h' v).marked := by
      intro v
      rw [markControls_apply, markAll_apply]
      by_cases hv : v ∈ nodes'
      · simp only [hv, if_true]; split <;> rfl
      · simp only [hv, if_false]; split <;> exact (gframe' v).2.2
    refine (evaluateAdj_filter bs keep true
      (fun v => OnTape (bs.filter keep) v ∨ v = J ∨ (h v).adj = none) I hI hdrop ?_ _ _ ?_ ?_ ?_ ?_).2 c
        (hon c hc)
    · intro b hb hk o ho
      exact Or.inl ⟨b, List.mem_filter.2 ⟨hb, hk⟩, Or.inr ho⟩
    · apply hinit
      · intro v hvJ hv
        simp only [markAll_adj, markControls_adj]
        rw [gadj v hvJ, if_pos hv]
      · intro v
        rw [hmk]
        split <;> simp_all
    · intro b hb hk d hd
      have e1 : saved (markControls cs true (markAll nodes true g)) d = saved h d := by
        apply saved_congr
        · rw [markControls_apply, markAll_apply]; split <;> split <;> exact (gframe d).1
        · rw [markControls_apply, markAll_apply]; split <;> split <;> exact (gframe d).2.1
      have e2 : saved (markControls cs true (markAll nodes' true g')) d = saved h' d := by
        apply saved_congr
        · rw [markControls_apply, markAll_apply]; split <;> split <;> exact (gframe' d).1
        · rw [markControls_apply, markAll_apply]; split <;> split <;> exact (gframe' d).2.1
      rw [e1, e2, hs b hb hk d hd]
    · intro b hb hk d hd
      rw [hmk, hmk']
      have := hm b hb hk d hd
      by_cases hd' : d ∈ nodes
      · rw [if_pos hd', if_pos (this.1 hd')]
      · rw [if_neg hd', if_neg (fun h => hd' (this.2 h)), hmark]
    · intro v hv
      simp only [markAll_adj, markControls_adj]
      by_cases hvJ : v = J
      · subst hvJ; rw [gJ, gJ']
      · rw [gadj v hvJ, gadj' v hvJ]
        rcases hv with hv | hv | hv
        · rw [if_pos hv, if_pos hv.of_filter]
        · exact absurd hv hvJ
        · rw [← hadj, hv]; simp
  unfold computeGradient
  simp only []
  exact List.map_congr_left fun c hc => by unfold getDerivative; rw [key c hc]

end Pyadjoint
