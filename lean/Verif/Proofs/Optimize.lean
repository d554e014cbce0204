import Verif.Model.Optimize
import Verif.Proofs.Chain
import Verif.Props.Pruning

/-! What the optimisation loops keep. -/

namespace Pyadjoint

variable {V T A : Type*}

theorem addOutputs_eq_some {nodes os r : List BV} (h : addOutputs nodes os = some r) :
    r = nodes ++ os := by
  induction os generalizing nodes with
  | nil => cases h; simp
  | cons o os ih =>
    unfold addOutputs at h
    split at h
    · cases h
    · rw [ih h]; simp

theorem addOutputs_eq_none {nodes os : List BV} (hnd : os.Nodup) :
    addOutputs nodes os = none ↔ ∃ o ∈ os, o ∈ nodes := by
  induction os generalizing nodes with
  | nil => simp [addOutputs]
  | cons o os ih =>
    obtain ⟨ho, hnd⟩ := List.nodup_cons.1 hnd
    unfold addOutputs
    split
    · rename_i h; simp [h]
    · rename_i h
      rw [ih hnd]
      constructor
      · rintro ⟨x, hx, hx'⟩
        rcases List.mem_append.1 hx' with h' | h'
        · exact ⟨x, by simp [hx], h'⟩
        · rw [List.mem_singleton] at h'; exact absurd (h' ▸ hx) ho
      · rintro ⟨x, hx, hx'⟩
        rcases List.mem_cons.1 hx with rfl | hx
        · exact absurd hx' h
        · exact ⟨x, hx, by simp [hx']⟩

theorem findRelevantNodes_append (bs cs : Blocks V T A) (ns : List BV) :
    findRelevantNodes (bs ++ cs) ns = findRelevantNodes cs (findRelevantNodes bs ns) := by
  unfold findRelevantNodes; rw [List.foldl_append]

/-- Blocks with a dependency in `nodes`. -/
def depIn (nodes : List BV) (b : Block V T A) : Bool := b.deps.any (· ∈ nodes)

/-- Blocks with an output in `nodes`. -/
def outIn (nodes : List BV) (b : Block V T A) : Bool := b.outs.any (· ∈ nodes)

theorem any_congr_mem {l : List BV} {m n : List BV} (h : ∀ x ∈ l, x ∈ m ↔ x ∈ n) :
    l.any (· ∈ m) = l.any (· ∈ n) := by
  rw [Bool.eq_iff_iff, List.any_eq_true, List.any_eq_true]
  constructor
  · rintro ⟨x, hx, hm⟩; exact ⟨x, hx, by simpa using (h x hx).1 (by simpa using hm)⟩
  · rintro ⟨x, hx, hm⟩; exact ⟨x, hx, by simpa using (h x hx).2 (by simpa using hm)⟩

/-- Dependencies of the first block are relevant at the end exactly if they are at the start. -/
theorem depIn_cons {b : Block V T A} {l : Blocks V T A} (wf : WF (b :: l)) (nodes : List BV) :
    depIn (findRelevantNodes (b :: l) nodes) b = depIn nodes b := by
  refine any_congr_mem fun d hd => ⟨fun h => ?_, fun h => subset_findRelevantNodes _ _ _ h⟩
  refine mem_findRelevantNodes_of_not_out (b :: l) nodes d ?_ h
  intro b' hb'
  rcases List.mem_cons.1 hb' with rfl | hb'
  · exact wf.self _ (by simp) d hd
  · exact (wf.head b' hb').1 d hd

theorem optControlsStep_some {l : Blocks V T A} (wf : WF l) (nodes : List BV) (acc : Blocks V T A)
    (r : List BV × Blocks V T A) (h : l.foldlM optControlsBlock (nodes, acc) = some r) :
    r = (findRelevantNodes l nodes, acc ++ l.filter (depIn (findRelevantNodes l nodes))) := by
  induction l generalizing nodes acc with
  | nil => cases h; simp [findRelevantNodes]
  | cons b l ih =>
    rw [List.foldlM_cons] at h
    simp only [Option.bind_eq_bind, Option.bind_eq_some_iff] at h
    obtain ⟨st, h1, h2⟩ := h
    have hdep := depIn_cons wf nodes
    rw [List.filter_cons, hdep, findRelevantNodes_cons]
    unfold optControlsBlock at h1
    dsimp only at h1
    split at h1
    · rename_i hany
      simp only [Option.map_eq_some_iff] at h1
      obtain ⟨ns, h3, rfl⟩ := h1
      rw [addOutputs_eq_some h3] at h2
      rw [if_pos hany, if_pos (show depIn nodes b = true from hany), ih wf.tail _ _ h2]
      simp
    · rename_i hany
      cases h1
      rw [if_neg hany, if_neg (show ¬ depIn nodes b = true from hany), ih wf.tail _ _ h2]

theorem optControlsStep_none {l : Blocks V T A} (wf : WF l) (nodes : List BV) (acc : Blocks V T A) :
    l.foldlM optControlsBlock (nodes, acc) = none ↔
      ∃ b ∈ l, depIn (findRelevantNodes l nodes) b = true ∧ ∃ o ∈ b.outs, o ∈ nodes := by
  induction l generalizing nodes acc with
  | nil => simp [List.foldlM]
  | cons b l ih =>
    rw [List.foldlM_cons]
    have hdep := depIn_cons wf nodes
    have hnew : ∀ b' ∈ l, ∀ o ∈ b'.outs, (o ∈ nodes ++ b.outs ↔ o ∈ nodes) := by
      intro b' hb' o ho
      rw [List.mem_append]
      exact ⟨fun h => h.resolve_right fun h => (wf.head b' hb').2 o h ho, Or.inl⟩
    have tail : ∀ ns, (ns = nodes ∨ ns = nodes ++ b.outs) →
        findRelevantNodes (b :: l) nodes = findRelevantNodes l ns →
        ((∃ b' ∈ l, depIn (findRelevantNodes l ns) b' = true ∧ ∃ o ∈ b'.outs, o ∈ ns) ↔
          ∃ b' ∈ l, depIn (findRelevantNodes (b :: l) nodes) b' = true ∧ ∃ o ∈ b'.outs, o ∈ nodes) := by
      intro ns hns hf
      rw [hf]
      refine exists_congr fun b' => and_congr_right fun hb' => and_congr_right fun _ =>
        exists_congr fun o => and_congr_right fun ho => ?_
      rcases hns with rfl | rfl
      · exact Iff.rfl
      · exact hnew b' hb' o ho
    unfold optControlsBlock
    dsimp only
    split
    · rename_i hany
      have hf : findRelevantNodes (b :: l) nodes = findRelevantNodes l (nodes ++ b.outs) := by
        rw [findRelevantNodes_cons, if_pos hany]
      cases ha : addOutputs nodes b.outs with
      | none =>
        simp only [Option.map_none]
        refine ⟨fun _ => ?_, fun _ => rfl⟩
        exact ⟨b, by simp, hdep.trans hany, (addOutputs_eq_none (wf.nodup b (by simp))).1 ha⟩
      | some ns =>
        have hns := addOutputs_eq_some ha
        subst hns
        simp only [Option.map_some]
        show List.foldlM optControlsBlock (nodes ++ b.outs, acc ++ [b]) l = none ↔ _
        rw [ih wf.tail, tail _ (Or.inr rfl) hf]
        constructor
        · rintro ⟨b', hb', h⟩; exact ⟨b', by simp [hb'], h⟩
        · rintro ⟨b', hb', h⟩
          rcases List.mem_cons.1 hb' with rfl | hb'
          · exfalso
            have := (addOutputs_eq_none (nodes := nodes) (wf.nodup b' (by simp))).2 h.2
            rw [this] at ha; cases ha
          · exact ⟨b', hb', h⟩
    · rename_i hany
      have hf : findRelevantNodes (b :: l) nodes = findRelevantNodes l nodes := by
        rw [findRelevantNodes_cons, if_neg hany]
      show List.foldlM optControlsBlock (nodes, acc) l = none ↔ _
      rw [ih wf.tail, tail _ (Or.inl rfl) hf]
      constructor
      · rintro ⟨b', hb', h⟩; exact ⟨b', by simp [hb'], h⟩
      · rintro ⟨b', hb', h⟩
        rcases List.mem_cons.1 hb' with rfl | hb'
        · exact absurd (hdep.symm.trans h.1) hany
        · exact ⟨b', hb', h⟩

theorem filter_congr_append {s t : Blocks V T A} (wf : WF (s ++ t)) (nodes : List BV) :
    ∀ b ∈ s, depIn (findRelevantNodes (s ++ t) nodes) b = depIn (findRelevantNodes s nodes) b := by
  intro b hb
  rw [findRelevantNodes_append]
  refine any_congr_mem fun d hd => ⟨fun h => ?_, fun h => subset_findRelevantNodes _ _ _ h⟩
  refine mem_findRelevantNodes_of_not_out t _ d (fun b' hb' => ?_) h
  exact ((List.pairwise_append.1 wf.later).2.2 b hb b' hb').1 d hd

theorem optControls_some {steps : List (Blocks V T A)} (wf : WF steps.flatten) (nodes : List BV)
    (acc : List (Blocks V T A)) (r : List BV × List (Blocks V T A))
    (h : steps.foldlM optControlsOuter (nodes, acc) = some r) :
    r = (findRelevantNodes steps.flatten nodes,
      acc ++ steps.map (·.filter (depIn (findRelevantNodes steps.flatten nodes)))) := by
  induction steps generalizing nodes acc with
  | nil => cases h; simp [findRelevantNodes]
  | cons s steps ih =>
    rw [List.flatten_cons] at wf ⊢
    rw [List.foldlM_cons] at h
    simp only [Option.bind_eq_bind, Option.bind_eq_some_iff] at h
    obtain ⟨st, h1, h2⟩ := h
    unfold optControlsOuter optControlsStep at h1
    simp only [Option.map_eq_some_iff] at h1
    obtain ⟨q, h3, rfl⟩ := h1
    have h3 := optControlsStep_some wf.append.1 _ _ _ h3
    subst h3
    rw [ih wf.append.2 _ _ h2, ← findRelevantNodes_append]
    simp only [List.nil_append, List.map_cons, List.append_assoc, List.singleton_append]
    rw [List.filter_congr (filter_congr_append wf nodes)]

theorem optControls_none {steps : List (Blocks V T A)} (wf : WF steps.flatten) (nodes : List BV)
    (acc : List (Blocks V T A)) :
    steps.foldlM optControlsOuter (nodes, acc) = none ↔
      ∃ b ∈ steps.flatten, depIn (findRelevantNodes steps.flatten nodes) b = true ∧
        ∃ o ∈ b.outs, o ∈ nodes := by
  induction steps generalizing nodes acc with
  | nil => simp
  | cons s steps ih =>
    rw [List.flatten_cons] at wf ⊢
    rw [List.foldlM_cons]
    have hcong := filter_congr_append wf nodes
    unfold optControlsOuter optControlsStep
    dsimp only
    cases hs : s.foldlM optControlsBlock (nodes, []) with
    | none =>
      refine ⟨fun _ => ?_, fun _ => rfl⟩
      obtain ⟨b, hb, h1, h2⟩ := (optControlsStep_none wf.append.1 nodes []).1 hs
      exact ⟨b, by simp [hb], (hcong b hb).trans h1, h2⟩
    | some q =>
      have hq := optControlsStep_some wf.append.1 _ _ _ hs
      subst hq
      show List.foldlM optControlsOuter (_, _) steps = none ↔ _
      rw [ih wf.append.2, ← findRelevantNodes_append]
      constructor
      · rintro ⟨b, hb, h1, o, ho, hn⟩
        refine ⟨b, by simp at hb ⊢; exact Or.inr hb, h1, o, ho, ?_⟩
        refine mem_findRelevantNodes_of_not_out s nodes o (fun b' hb' h => ?_) hn
        exact ((List.pairwise_append.1 wf.later).2.2 b' hb' b hb).2 o h ho
      · rintro ⟨b, hb, h1, o, ho, hn⟩
        rcases List.mem_append.1 hb with hb | hb
        · exfalso
          have := (optControlsStep_none wf.append.1 nodes []).2 ⟨b, hb, (hcong b hb).symm.trans h1, o, ho, hn⟩
          rw [this] at hs; cases hs
        · exact ⟨b, hb, h1, o, ho, subset_findRelevantNodes _ _ _ hn⟩

/-! ## Backwards -/

/-- The final `retained_nodes` of `optimize_for_functionals`. -/
def findNeededNodes (bs : Blocks V T A) (fs : List BV) : List BV :=
  bs.foldr (fun b r => if b.outs.any (· ∈ r) then r ++ b.deps else r) fs

theorem findNeededNodes_cons (b : Block V T A) (bs : Blocks V T A) (fs : List BV) :
    findNeededNodes (b :: bs) fs = if b.outs.any (· ∈ findNeededNodes bs fs)
      then findNeededNodes bs fs ++ b.deps else findNeededNodes bs fs := rfl

theorem findNeededNodes_append (s t : Blocks V T A) (fs : List BV) :
    findNeededNodes (s ++ t) fs = findNeededNodes s (findNeededNodes t fs) := by
  unfold findNeededNodes; rw [List.foldr_append]

theorem subset_findNeededNodes (bs : Blocks V T A) (fs : List BV) :
    ∀ v ∈ fs, v ∈ findNeededNodes bs fs := by
  induction bs with
  | nil => intro v hv; exact hv
  | cons b bs ih =>
    intro v hv
    rw [findNeededNodes_cons]
    split
    · exact List.mem_append_left _ (ih v hv)
    · exact ih v hv

theorem mem_findNeededNodes_of_not_dep (bs : Blocks V T A) (fs : List BV) (v : BV)
    (hv : ∀ b ∈ bs, v ∉ b.deps) (h : v ∈ findNeededNodes bs fs) : v ∈ fs := by
  induction bs with
  | nil => exact h
  | cons b bs ih =>
    rw [findNeededNodes_cons] at h
    have hv' := fun b' hb' => hv b' (List.mem_cons_of_mem _ hb')
    split at h
    · rcases List.mem_append.1 h with h | h
      · exact ih hv' h
      · exact absurd h (hv b (by simp))
    · exact ih hv' h

theorem outIn_cons {b : Block V T A} {l : Blocks V T A} (hself : ∀ d ∈ b.deps, d ∉ b.outs)
    (fs : List BV) : outIn (findNeededNodes (b :: l) fs) b = outIn (findNeededNodes l fs) b := by
  refine any_congr_mem fun o ho => ?_
  rw [findNeededNodes_cons]
  split
  · rw [List.mem_append]
    exact ⟨fun h => h.resolve_right fun h => hself o h ho, Or.inl⟩
  · exact Iff.rfl

theorem outIn_append {s t : Blocks V T A} (wf : WF (s ++ t)) (fs : List BV) :
    ∀ b ∈ t, outIn (findNeededNodes (s ++ t) fs) b = outIn (findNeededNodes t fs) b := by
  intro b hb
  rw [findNeededNodes_append]
  refine any_congr_mem fun o ho => ⟨fun h => ?_, fun h => subset_findNeededNodes _ _ _ h⟩
  refine mem_findNeededNodes_of_not_dep s _ o (fun b' hb' h' => ?_) h
  exact ((List.pairwise_append.1 wf.later).2.2 b' hb' b hb).1 o h' ho

theorem optFunctionalsStep {l : Blocks V T A} (wf : WF l) (nodes : List BV) :
    l.reverse.foldl optFunctionalsBlock (nodes, [])
      = (findNeededNodes l nodes, (l.filter (outIn (findNeededNodes l nodes))).reverse) := by
  induction l with
  | nil => rfl
  | cons b l ih =>
    rw [List.reverse_cons, List.foldl_append, ih wf.tail, List.foldl_cons, List.foldl_nil]
    have hcong := List.filter_congr (outIn_append (s := [b]) (t := l) wf nodes)
    simp only [List.singleton_append] at hcong
    rw [List.filter_cons, outIn_cons (wf.self b (by simp)), hcong]
    unfold optFunctionalsBlock
    rw [findNeededNodes_cons]
    dsimp only
    by_cases hc : b.outs.any (· ∈ findNeededNodes l nodes) = true
    · rw [if_pos hc, if_pos hc, if_pos (show outIn (findNeededNodes l nodes) b = true from hc)]; simp
    · rw [if_neg hc, if_neg hc, if_neg (show ¬ outIn (findNeededNodes l nodes) b = true from hc)]

theorem optFunctionals_eq {steps : List (Blocks V T A)} (wf : WF steps.flatten) (fs : List BV) :
    steps.reverse.foldl optFunctionalsOuter (fs, [])
      = (findNeededNodes steps.flatten fs,
        (steps.map (·.filter (outIn (findNeededNodes steps.flatten fs)))).reverse) := by
  induction steps with
  | nil => rfl
  | cons s steps ih =>
    rw [List.flatten_cons] at wf ⊢
    rw [List.reverse_cons, List.foldl_append, ih wf.append.2, List.foldl_cons, List.foldl_nil]
    unfold optFunctionalsOuter
    dsimp only
    rw [optFunctionalsStep wf.append.1, findNeededNodes_append, List.map_cons, List.reverse_cons]
    simp only [List.reverse_reverse]
    congr 2
    refine congrArg List.reverse ?_
    refine List.map_congr_left fun t ht => List.filter_congr fun b hb => ?_
    have := outIn_append wf fs b (List.mem_flatten.2 ⟨t, ht, hb⟩)
    rw [findNeededNodes_append] at this
    exact this.symm

theorem findNeededNodes_sound (bs : Blocks V T A) (fs : List BV) (v : BV)
    (hv : v ∈ findNeededNodes bs fs) : CoReach bs (· ∈ fs) v := by
  have gen : ∀ (l : Blocks V T A), (∀ b ∈ l, b ∈ bs) →
      ∀ v ∈ findNeededNodes l fs, CoReach bs (· ∈ fs) v := by
    intro l
    induction l with
    | nil => intro _ v hv; exact CoReach.base hv
    | cons b l ih =>
      intro hsub v hv
      have ih := ih fun b' hb' => hsub b' (by simp [hb'])
      rw [findNeededNodes_cons] at hv
      split at hv
      · rename_i hany
        obtain ⟨o, ho, hon⟩ := List.any_eq_true.1 hany
        rcases List.mem_append.1 hv with h | h
        · exact ih v h
        · exact CoReach.step (hsub b (by simp)) ho (ih o (by simpa using hon)) h
      · exact ih v hv
  exact gen bs (fun _ h => h) v hv

theorem findNeededNodes_closed {bs : Blocks V T A} (wf : WF bs) (fs : List BV) :
    ∀ b ∈ bs, (∃ o ∈ b.outs, o ∈ findNeededNodes bs fs) → ∀ d ∈ b.deps, d ∈ findNeededNodes bs fs := by
  intro b hb ho d hd
  obtain ⟨s, t, rfl⟩ := List.append_of_mem hb
  have h1 : outIn (findNeededNodes (s ++ b :: t) fs) b = true := by
    obtain ⟨o, ho, hon⟩ := ho
    exact List.any_eq_true.2 ⟨o, ho, by simpa using hon⟩
  rw [outIn_append wf fs b (by simp), outIn_cons (wf.self b (by simp))] at h1
  rw [findNeededNodes_append]
  apply subset_findNeededNodes
  unfold outIn at h1
  rw [findNeededNodes_cons, if_pos h1]
  exact List.mem_append_right _ hd

theorem findNeededNodes_iff {bs : Blocks V T A} (wf : WF bs) (fs : List BV) (v : BV) :
    v ∈ findNeededNodes bs fs ↔ CoReach bs (· ∈ fs) v := by
  constructor
  · exact findNeededNodes_sound bs fs v
  · intro h
    induction h with
    | base h => exact subset_findNeededNodes bs fs _ h
    | step hb ho _ hd ih => exact findNeededNodes_closed wf fs _ hb ⟨_, ho, ih⟩ _ hd

end Pyadjoint
