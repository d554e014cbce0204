import Verif.Model.Reduced
import Verif.Proofs.Forward

/-! What `rfEval` (the evaluation of a reduced functional) leaves on each variable. -/

namespace Pyadjoint

variable {V T A : Type*}

theorem updateControls_of_not_mem (cs : List BV) (xs : List V) (h : Heap V T A) (v : BV)
    (hv : v ∉ cs) : updateControls cs xs h v = h v := by
  unfold updateControls
  induction cs generalizing xs h with
  | nil => rfl
  | cons c cs ih =>
    cases xs with
    | nil => rfl
    | cons x xs =>
      rw [List.zip_cons_cons, List.foldl_cons, ih _ _ (fun h => hv (by simp [h]))]
      unfold setCkpt
      split
      · rfl
      · rw [Function.update_of_ne (fun h => hv (by simp [h]))]

theorem updateControls_frame (cs : List BV) (xs : List V) (h : Heap V T A) (v : BV) :
    ∃ c, updateControls cs xs h v = { h v with ckpt := c } := by
  unfold updateControls
  generalize cs.zip xs = l
  induction l generalizing h with
  | nil => exact ⟨_, rfl⟩
  | cons p l ih =>
    rw [List.foldl_cons]
    obtain ⟨c, hc⟩ := ih (setCkpt h p.1 (some p.2))
    refine ⟨c, ?_⟩
    rw [hc]
    unfold setCkpt
    split
    · rfl
    · by_cases hv : v = p.1
      · subst hv; simp
      · rw [Function.update_of_ne hv]

theorem updateControls_ckpt (cs : List BV) (xs : List V) (h : Heap V T A)
    (hnd : cs.Nodup) (hlen : xs.length = cs.length)
    (hfl : ∀ c ∈ cs, (h c).isControl = false) (i : Nat) (hi : i < cs.length) :
    (updateControls cs xs h cs[i]).ckpt = some (xs[i]'(hlen ▸ hi)) := by
  unfold updateControls
  induction cs generalizing xs h i with
  | nil => simp at hi
  | cons c cs ih =>
    cases xs with
    | nil => simp at hlen
    | cons x xs =>
      obtain ⟨hc, hnd⟩ := List.nodup_cons.1 hnd
      rw [List.zip_cons_cons, List.foldl_cons]
      have hset : setCkpt h c (some x) = Function.update h c { h c with ckpt := some x } := by
        simp [setCkpt, hfl c (by simp)]
      cases i with
      | zero =>
        have := updateControls_of_not_mem cs xs (setCkpt h c (some x)) c hc
        unfold updateControls at this
        simp only [List.getElem_cons_zero]
        rw [this, hset]; simp
      | succ i =>
        simp only [List.getElem_cons_succ]
        apply ih _ _ hnd (by simpa using hlen)
        intro d hd
        have hdc : d ≠ c := by rintro rfl; exact hc hd
        rw [hset, Function.update_of_ne hdc]
        exact hfl d (by simp [hd])

@[simp] theorem updateControls_isControl (cs : List BV) (xs : List V) (h : Heap V T A) (v : BV) :
    (updateControls cs xs h v).isControl = (h v).isControl := by
  obtain ⟨c, hc⟩ := updateControls_frame cs xs h v; rw [hc]

@[simp] theorem updateControls_output (cs : List BV) (xs : List V) (h : Heap V T A) (v : BV) :
    (updateControls cs xs h v).output = (h v).output := by
  obtain ⟨c, hc⟩ := updateControls_frame cs xs h v; rw [hc]

/-- Evaluating changes checkpoints and nothing else, provided no control flag was set. -/
theorem rfEval_frame (bs : Blocks V T A) (cs : List BV) (xs : List V) (h : Heap V T A) (v : BV)
    (hfl : ∀ c ∈ cs, (h c).isControl = false) :
    ∃ c, rfEval bs cs xs h v = { h v with ckpt := c } := by
  unfold rfEval
  simp only []
  rw [markControls_apply]
  obtain ⟨c, hc⟩ := recompute_frame bs (markControls cs true (updateControls cs xs h)) v
  rw [hc, markControls_apply]
  obtain ⟨c', hc'⟩ := updateControls_frame cs xs h v
  split
  · rename_i hv
    refine ⟨c, ?_⟩
    rw [hc']
    have := hfl v hv
    simp [← this]
  · rw [hc']; exact ⟨c, rfl⟩

theorem rfEval_control (bs : Blocks V T A) (cs : List BV) (xs : List V) (h : Heap V T A)
    (hnd : cs.Nodup) (hlen : xs.length = cs.length)
    (hfl : ∀ c ∈ cs, (h c).isControl = false) (i : Nat) (hi : i < cs.length) :
    (rfEval bs cs xs h cs[i]).ckpt = some (xs[i]'(hlen ▸ hi)) := by
  unfold rfEval
  simp only [markControls_ckpt]
  rw [recompute_of_control]
  · rw [markControls_ckpt]
    exact updateControls_ckpt cs xs h hnd hlen hfl i hi
  · rw [markControls_apply, if_pos (List.getElem_mem _)]

theorem rfEval_leaf (bs : Blocks V T A) (cs : List BV) (xs : List V) (h : Heap V T A) (v : BV)
    (hv : v ∉ cs) (ho : ∀ b ∈ bs, v ∉ b.outs) : rfEval bs cs xs h v = h v := by
  unfold rfEval
  rw [markControls_apply, if_neg hv, recompute_of_not_out bs _ v ho, markControls_apply,
    if_neg hv, updateControls_of_not_mem cs xs h v hv]

theorem rfEval_block {bs : Blocks V T A} (wf : WF bs) (cs : List BV) (xs : List V)
    (h : Heap V T A) (hfl : ∀ v, (h v).isControl = false) (b : Block V T A) (hb : b ∈ bs)
    (hno : ∀ o ∈ b.outs, o ∉ cs) (i : Nat) (hi : i < b.outs.length) :
    (rfEval bs cs xs h b.outs[i]).ckpt
      = orKeep (h b.outs[i]).ckpt (b.recomputeC (b.deps.map (saved (rfEval bs cs xs h))) i) := by
  unfold rfEval
  simp only [markControls_ckpt]
  rw [recompute_eq wf _ b hb i hi]
  have hn : b.outs[i] ∉ cs := hno _ (List.getElem_mem _)
  rw [if_neg, markControls_ckpt, updateControls_of_not_mem cs xs h _ hn]
  · congr 2
    exact List.map_congr_left fun d _ => by simp
  · intro hany
    obtain ⟨o, ho, hc⟩ := List.any_eq_true.1 hany
    rw [markControls_apply, if_neg (hno o ho), updateControls_isControl, hfl] at hc
    cases hc

theorem rfEval_block_control {bs : Blocks V T A} (wf : WF bs) (cs : List BV) (xs : List V)
    (h : Heap V T A) (b : Block V T A) (hb : b ∈ bs)
    (hc : ∃ o ∈ b.outs, o ∈ cs) (i : Nat) (hi : i < b.outs.length) (hn : b.outs[i] ∉ cs) :
    (rfEval bs cs xs h b.outs[i]).ckpt = (h b.outs[i]).ckpt := by
  unfold rfEval
  simp only [markControls_ckpt]
  rw [recompute_eq wf _ b hb i hi]
  obtain ⟨o, ho, hoc⟩ := hc
  rw [if_pos (List.any_eq_true.2 ⟨o, ho, by rw [markControls_apply, if_pos hoc]⟩),
    markControls_ckpt, updateControls_of_not_mem cs xs h _ hn]

end Pyadjoint
