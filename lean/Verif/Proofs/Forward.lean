import Verif.Proofs.Marking

/-! The forward sweeps (tangent linear, replay) solve the equations of the blocks. -/

namespace Pyadjoint

variable {V T A : Type*}

theorem entries_zipIdx_nodup {bvs : List BV} (hn : bvs.Nodup) {i : Nat} (hi : i < bvs.length) :
    entries bvs bvs[i] = [(bvs[i], i)] := by
  have gen : ∀ (l : List BV) (k : Nat), l.Nodup → ∀ (i : Nat) (hi : i < l.length),
      (l.zipIdx k).filter (fun p => p.1 = l[i]) = [(l[i], k + i)] := by
    intro l
    induction l with
    | nil => intro k _ i hi; simp at hi
    | cons a l ih =>
      intro k hn i hi
      obtain ⟨ha, hn⟩ := List.nodup_cons.1 hn
      rw [List.zipIdx_cons, List.filter_cons]
      cases i with
      | zero =>
        simp only [List.getElem_cons_zero, decide_true, if_true, Nat.add_zero]
        congr 1
        rw [List.filter_eq_nil_iff]
        rintro ⟨w, j⟩ hp
        obtain ⟨_, _, h3⟩ := List.mem_zipIdx hp
        simp only [decide_eq_true_eq]
        rintro rfl
        exact ha (h3 ▸ List.getElem_mem _)
      | succ i =>
        have hi' : i < l.length := by simpa using hi
        have hne : a ≠ l[i] := fun e => ha (e ▸ List.getElem_mem _)
        simp only [List.getElem_cons_succ, hne, decide_false]
        rw [if_neg (by simp), ih (k + 1) hn i hi']
        simp; omega
  simpa [entries] using gen bvs 0 hn i hi

/-- Variables no block produces keep their tangent value. -/
theorem evaluateTlm_of_not_out [Add T] (bs : Blocks V T A) (m : Bool) (h : Heap V T A) (v : BV)
    (hv : ∀ b ∈ bs, v ∉ b.outs) : evaluateTlm bs m h v = h v := by
  unfold evaluateTlm
  induction bs generalizing h with
  | nil => rfl
  | cons b bs ih =>
    rw [List.foldl_cons, ih _ (fun b' hb' => hv b' (by simp [hb'])), Block.evaluateTlm_apply]
    unfold Block.tlmAfter
    rw [entries_nil_of_not_mem (hv b (by simp))]
    simp

/-- The tangent linear sweep solves the tangent equation of every block. -/
theorem evaluateTlm_eq [Add T] {bs : Blocks V T A} (wf : WF bs) (m : Bool) (h : Heap V T A) :
    ∀ b ∈ bs, ∀ v ∈ b.outs, (evaluateTlm bs m h v).tlm
      = if (b.deps.map fun d => (evaluateTlm bs m h d).tlm).all Option.isNone then (h v).tlm
        else if (h v).marked || !m then
          (entries b.outs v).foldl (fun o p => accum o (b.tlmC (b.deps.map (saved h))
            (b.deps.map fun d => (evaluateTlm bs m h d).tlm) p.2)) (h v).tlm
        else (h v).tlm := by
  induction bs generalizing h with
  | nil => intro b hb; cases hb
  | cons c bs ih =>
    intro b hb v hv
    have e : evaluateTlm (c :: bs) m h = evaluateTlm bs m (c.evaluateTlm m h) := rfl
    rw [e]
    rcases List.mem_cons.1 hb with rfl | hb
    · rw [evaluateTlm_of_not_out bs m _ v (fun b' hb' => (wf.head b' hb').2 v hv)]
      have hd : b.deps.map (fun d => (evaluateTlm bs m (b.evaluateTlm m h) d).tlm)
          = b.deps.map fun d => (h d).tlm := List.map_congr_left fun d hd => by
        rw [evaluateTlm_of_not_out bs m _ d (fun b' hb' => (wf.head b' hb').1 d hd),
          Block.evaluateTlm_apply]
        unfold Block.tlmAfter
        rw [entries_nil_of_not_mem (wf.self b (by simp) d hd)]
        simp
      rw [hd, Block.evaluateTlm_apply]
      rfl
    · have hvc : v ∉ c.outs := fun hc => (wf.head b hb).2 v hc hv
      have hfix : c.evaluateTlm m h v = h v := by
        rw [Block.evaluateTlm_apply]
        unfold Block.tlmAfter
        rw [entries_nil_of_not_mem hvc]
        simp
      have hsaved : b.deps.map (saved (c.evaluateTlm m h)) = b.deps.map (saved h) :=
        List.map_congr_left fun d _ => saved_congr
          (by rw [Block.evaluateTlm_apply]) (by rw [Block.evaluateTlm_apply])
      rw [ih wf.tail (c.evaluateTlm m h) b hb v hv, hfix, hsaved]

/-- Variables no block produces keep their value in a replay. -/
theorem recompute_of_not_out (bs : Blocks V T A) (h : Heap V T A) (v : BV)
    (hv : ∀ b ∈ bs, v ∉ b.outs) : recompute bs h v = h v := by
  unfold recompute
  induction bs generalizing h with
  | nil => rfl
  | cons b bs ih =>
    rw [List.foldl_cons, ih _ (fun b' hb' => hv b' (by simp [hb'])), Block.recompute_apply]
    unfold Block.ckptAfter
    rw [entries_nil_of_not_mem (hv b (by simp))]
    simp

/-- Controls keep their value in a replay (`block_variable.py:92-96`, `block.py:343-347`). -/
theorem recompute_of_control (bs : Blocks V T A) (h : Heap V T A) (v : BV)
    (hv : (h v).isControl = true) : recompute bs h v = h v := by
  unfold recompute
  induction bs generalizing h with
  | nil => rfl
  | cons b bs ih =>
    have e : b.recompute false h v = h v := by
      rw [Block.recompute_apply]
      unfold Block.ckptAfter
      by_cases ho : v ∈ b.outs
      · rw [if_pos (List.any_eq_true.2 ⟨v, ho, hv⟩)]
      · rw [entries_nil_of_not_mem ho]; simp
    rw [List.foldl_cons, ih _ (by rw [e]; exact hv), e]

/-- The replay solves the equation of every block that does not produce a control, and leaves
the other blocks' outputs alone. -/
theorem recompute_eq {bs : Blocks V T A} (wf : WF bs) (h : Heap V T A) :
    ∀ b ∈ bs, ∀ (i : Nat) (hi : i < b.outs.length), (recompute bs h b.outs[i]).ckpt
      = if b.outs.any (fun o => (h o).isControl) then (h b.outs[i]).ckpt
        else orKeep (h b.outs[i]).ckpt (b.recomputeC (b.deps.map (saved (recompute bs h))) i) := by
  induction bs generalizing h with
  | nil => intro b hb; cases hb
  | cons c bs ih =>
    intro b hb i hi
    have hv : b.outs[i] ∈ b.outs := List.getElem_mem _
    have e : recompute (c :: bs) h = recompute bs (c.recompute false h) := rfl
    rw [e]
    rcases List.mem_cons.1 hb with rfl | hb
    · rw [recompute_of_not_out bs _ _ (fun b' hb' => (wf.head b' hb').2 _ hv)]
      have hd : b.deps.map (saved (recompute bs (b.recompute false h)))
          = b.deps.map (saved h) := List.map_congr_left fun d hd => by
        have : recompute bs (b.recompute false h) d = h d := by
          rw [recompute_of_not_out bs _ d (fun b' hb' => (wf.head b' hb').1 d hd),
            Block.recompute_apply]
          unfold Block.ckptAfter
          rw [entries_nil_of_not_mem (wf.self b (by simp) d hd)]
          simp
        exact saved_congr (by rw [this]) (by rw [this])
      rw [hd, Block.recompute_apply]
      show b.ckptAfter false h _ = _
      unfold Block.ckptAfter
      rw [entries_zipIdx_nodup (wf.nodup b (by simp)) hi]
      simp
    · have hvc : b.outs[i] ∉ c.outs := fun hc => (wf.head b hb).2 _ hc hv
      have hfix : ∀ w ∉ c.outs, c.recompute false h w = h w := by
        intro w hw
        rw [Block.recompute_apply]
        unfold Block.ckptAfter
        rw [entries_nil_of_not_mem hw]
        simp
      have hctl : (fun o => (c.recompute false h o).isControl) = fun o => (h o).isControl := by
        funext o; rw [Block.recompute_apply]
      rw [ih wf.tail (c.recompute false h) b hb i hi, hfix _ hvc, hctl]

end Pyadjoint
