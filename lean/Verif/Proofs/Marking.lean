import Verif.Proofs.Engine
import Verif.Spec.Reach

/-! `findRelevantNodes` computes reachability; the adjoint sweep only depends on reachable nodes. -/

namespace Pyadjoint

variable {V T A : Type*}

theorem WF.tail {b : Block V T A} {bs : Blocks V T A} (h : WF (b :: bs)) : WF bs :=
  ⟨fun c hc => h.nodup c (by simp [hc]), fun c hc => h.self c (by simp [hc]),
    (List.pairwise_cons.1 h.later).2⟩

theorem WF.head {b : Block V T A} {bs : Blocks V T A} (h : WF (b :: bs)) :
    ∀ b' ∈ bs, (∀ d ∈ b.deps, d ∉ b'.outs) ∧ (∀ o ∈ b.outs, o ∉ b'.outs) :=
  (List.pairwise_cons.1 h.later).1

theorem WF.append {bs cs : Blocks V T A} (h : WF (bs ++ cs)) : WF bs ∧ WF cs :=
  ⟨⟨fun c hc => h.nodup c (by simp [hc]), fun c hc => h.self c (by simp [hc]),
    (List.pairwise_append.1 h.later).1⟩,
   ⟨fun c hc => h.nodup c (by simp [hc]), fun c hc => h.self c (by simp [hc]),
    (List.pairwise_append.1 h.later).2.1⟩⟩

theorem findRelevantNodes_nil (cs : List BV) :
    findRelevantNodes ([] : Blocks V T A) cs = cs := rfl

theorem findRelevantNodes_cons (b : Block V T A) (bs : Blocks V T A) (cs : List BV) :
    findRelevantNodes (b :: bs) cs
      = findRelevantNodes bs (if b.deps.any (· ∈ cs) then cs ++ b.outs else cs) := rfl

theorem subset_findRelevantNodes (bs : Blocks V T A) (cs : List BV) :
    ∀ v ∈ cs, v ∈ findRelevantNodes bs cs := by
  induction bs generalizing cs with
  | nil => intro v hv; exact hv
  | cons b bs ih =>
    intro v hv
    rw [findRelevantNodes_cons]
    apply ih
    split
    · exact List.mem_append_left _ hv
    · exact hv

/-- A node that is not produced on the tape is relevant only if it was so initially. -/
theorem mem_findRelevantNodes_of_not_out (bs : Blocks V T A) (cs : List BV) (v : BV)
    (hv : ∀ b ∈ bs, v ∉ b.outs) : v ∈ findRelevantNodes bs cs → v ∈ cs := by
  induction bs generalizing cs with
  | nil => exact id
  | cons b bs ih =>
    intro h
    rw [findRelevantNodes_cons] at h
    have := ih _ (fun b' hb' => hv b' (by simp [hb'])) h
    split at this
    · rcases List.mem_append.1 this with h | h
      · exact h
      · exact absurd h (hv b (by simp))
    · exact this

theorem findRelevantNodes_sound (bs : Blocks V T A) (cs : List BV) (v : BV)
    (hv : v ∈ findRelevantNodes bs cs) : Reach bs (· ∈ cs) v := by
  have gen : ∀ (bs' : Blocks V T A) (ns : List BV), (∀ b ∈ bs', b ∈ bs) →
      (∀ n ∈ ns, Reach bs (· ∈ cs) n) → ∀ v ∈ findRelevantNodes bs' ns, Reach bs (· ∈ cs) v := by
    intro bs'
    induction bs' with
    | nil => intro ns _ h v hv; exact h v hv
    | cons b bs' ih =>
      intro ns hsub hns v hv
      rw [findRelevantNodes_cons] at hv
      refine ih _ (fun b' hb' => hsub b' (by simp [hb'])) ?_ v hv
      split
      · rename_i hany
        obtain ⟨d, hd, hdn⟩ := List.any_eq_true.1 hany
        have hdn : d ∈ ns := by simpa using hdn
        intro n hn
        rcases List.mem_append.1 hn with h | h
        · exact hns n h
        · exact Reach.step (hsub b (by simp)) hd (hns d hdn) h
      · exact hns
  exact gen bs cs (fun _ h => h) (fun n hn => Reach.base hn) v hv

/-- The computed set is closed under the blocks of a well-formed tape. -/
theorem findRelevantNodes_closed {bs : Blocks V T A} (wf : WF bs) (cs : List BV) :
    ∀ b ∈ bs, (∃ d ∈ b.deps, d ∈ findRelevantNodes bs cs) →
      ∀ o ∈ b.outs, o ∈ findRelevantNodes bs cs := by
  induction bs generalizing cs with
  | nil => intro b hb; cases hb
  | cons c bs ih =>
    intro b hb hd o ho
    rw [findRelevantNodes_cons] at hd ⊢
    rcases List.mem_cons.1 hb with rfl | hb
    · obtain ⟨d, hd, hdn⟩ := hd
      have hdn := mem_findRelevantNodes_of_not_out bs _ d (fun b' hb' => (wf.head b' hb').1 d hd) hdn
      have hd' : d ∈ cs := by
        split at hdn
        · rcases List.mem_append.1 hdn with h | h
          · exact h
          · exact absurd h (wf.self b (by simp) d hd)
        · exact hdn
      apply subset_findRelevantNodes
      rw [if_pos (List.any_eq_true.2 ⟨d, hd, by simpa using hd'⟩)]
      exact List.mem_append_right _ ho
    · exact ih wf.tail _ b hb hd o ho

theorem findRelevantNodes_iff {bs : Blocks V T A} (wf : WF bs) (cs : List BV) (v : BV) :
    v ∈ findRelevantNodes bs cs ↔ Reach bs (· ∈ cs) v := by
  constructor
  · exact findRelevantNodes_sound bs cs v
  · intro h
    induction h with
    | base h => exact subset_findRelevantNodes bs cs _ h
    | step hb hd _ ho ih => exact findRelevantNodes_closed wf cs _ hb ⟨_, hd, ih⟩ _ ho

/-- Two adjoint sweeps that agree on a forward closed set of nodes (values, seeds) and that both
include these nodes leave the same adjoint values on them. -/
theorem evaluateAdj_sim [Add A] (bs : Blocks V T A) (R : BV → Prop)
    (hR : ∀ b ∈ bs, (∃ d ∈ b.deps, R d) → ∀ o ∈ b.outs, R o)
    (m₁ m₂ : Bool) (h₁ h₂ : Heap V T A)
    (hm₁ : ∀ v, R v → ((h₁ v).marked || !m₁) = true)
    (hm₂ : ∀ v, R v → ((h₂ v).marked || !m₂) = true)
    (hadj : ∀ v, R v → (h₁ v).adj = (h₂ v).adj)
    (hs : ∀ v, saved h₁ v = saved h₂ v) :
    ∀ v, R v → (evaluateAdj bs m₁ h₁ v).adj = (evaluateAdj bs m₂ h₂ v).adj := by
  induction bs with
  | nil => exact hadj
  | cons b bs ih =>
    intro v hv
    have ih := ih (fun b' hb' => hR b' (by simp [hb']))
    rw [evaluateAdj_cons, evaluateAdj_cons, Block.evaluateAdj_apply, Block.evaluateAdj_apply]
    show b.adjAfter m₁ (evaluateAdj bs m₁ h₁) v = b.adjAfter m₂ (evaluateAdj bs m₂ h₂) v
    have f₁ := evaluateAdj_frame bs m₁ h₁
    have f₂ := evaluateAdj_frame bs m₂ h₂
    generalize evaluateAdj bs m₁ h₁ = g₁ at *
    generalize evaluateAdj bs m₂ h₂ = g₂ at *
    have s₁ : ∀ w, saved g₁ w = saved h₁ w := fun w => by
      obtain ⟨a, ha⟩ := f₁ w; exact saved_congr (by rw [ha]) (by rw [ha])
    have s₂ : ∀ w, saved g₂ w = saved h₂ w := fun w => by
      obtain ⟨a, ha⟩ := f₂ w; exact saved_congr (by rw [ha]) (by rw [ha])
    have hs' : b.deps.map (saved g₁) = b.deps.map (saved g₂) :=
      List.map_congr_left fun w _ => by rw [s₁, s₂, hs]
    have mk₁ : ((g₁ v).marked || !m₁) = true := by
      obtain ⟨a, ha⟩ := f₁ v; rw [ha]; exact hm₁ v hv
    have mk₂ : ((g₂ v).marked || !m₂) = true := by
      obtain ⟨a, ha⟩ := f₂ v; rw [ha]; exact hm₂ v hv
    unfold Block.adjAfter
    by_cases hvd : v ∈ b.deps
    · have ho : b.outs.map (fun o => (g₁ o).adj) = b.outs.map (fun o => (g₂ o).adj) :=
        List.map_congr_left fun o ho => ih o (hR b (by simp) ⟨v, hvd, hv⟩ o ho)
      rw [ho, hs', mk₁, mk₂, ih v hv]
    · rw [entries_nil_of_not_mem hvd, mk₁, mk₂]
      simp only [List.foldl_nil, ite_self]
      exact ih v hv

end Pyadjoint
