import Verif.Model.Checkpoint
import Verif.Proofs.Replay
import Verif.Props.OrderedSet

/-! What single actions of the checkpoint manager do, variable by variable. -/

namespace Pyadjoint

variable {V T A : Type*}

theorem clearAll_apply (vs : List BV) (h : Heap V T A) (v : BV) :
    clearAll vs h v = if v ∈ vs then { h v with ckpt := none } else h v := by
  unfold clearAll
  induction vs generalizing h with
  | nil => simp
  | cons w vs ih =>
    rw [List.foldl_cons, ih]
    unfold setCkptRaw
    by_cases hw : v = w
    · subst hw; simp
    · rw [Function.update_of_ne hw]
      simp [hw]

theorem foldl_update_const {X : Type*} (f : BV → X) (vs : List BV) (c : BV → X) (v : BV) :
    vs.foldl (fun c v => Function.update c v (f v)) c v = if v ∈ vs then f v else c v := by
  induction vs generalizing c with
  | nil => simp
  | cons w vs ih =>
    rw [List.foldl_cons, ih]
    by_cases hw : v = w
    · subst hw; simp
    · rw [Function.update_of_ne hw]
      simp [hw]

namespace CStep

/-- What is stored after `checkpoint`. -/
theorem checkpoint_ckpt (s : CStep V T A) (ss sa : Bool) (global : List BV) (h : Heap V T A) (v : BV) :
    (s.checkpoint ss sa global h).ckpt v =
      if sa = true ∧ v ∈ s.adjStored.elems then some (some (saved h v))
      else if ss = true ∧ v ∈ s.state.elems then some (stateValue h global v)
      else s.ckpt v := by
  unfold checkpoint
  cases ss <;> cases sa <;> simp [foldl_update_const]

@[simp] theorem checkpoint_blocks (s : CStep V T A) (ss sa : Bool) (global : List BV) (h : Heap V T A) :
    (s.checkpoint ss sa global h).blocks = s.blocks := rfl

@[simp] theorem checkpoint_state (s : CStep V T A) (ss sa : Bool) (global : List BV) (h : Heap V T A) :
    (s.checkpoint ss sa global h).state = s.state := rfl

@[simp] theorem checkpoint_adjDeps (s : CStep V T A) (ss sa : Bool) (global : List BV) (h : Heap V T A) :
    (s.checkpoint ss sa global h).adjDeps = s.adjDeps := rfl

@[simp] theorem checkpoint_revised (s : CStep V T A) (ss sa : Bool) (global : List BV) (h : Heap V T A) :
    (s.checkpoint ss sa global h).revised = s.revised := rfl

theorem mem_outs {s : CStep V T A} {v : BV} : v ∈ s.outs ↔ ∃ b ∈ s.blocks, v ∈ b.outs := by
  simp [outs]

end CStep

namespace CTape

theorem clearState_apply (step : Nat) (sm : Bool) (f g i : BV → Bool) (vs : List BV)
    (h : Heap V T A) (keep : Bool) (v : BV) :
    (clearState step sm f g i vs h keep).1 v = h v ∨
    (v ∈ vs ∧ (clearState step sm f g i vs h keep).1 v = { h v with ckpt := none }) := by
  induction vs generalizing h keep with
  | nil => exact Or.inl rfl
  | cons w vs ih =>
    unfold clearState
    have key : ∀ h' : Heap V T A, (h' = h ∨ h' = setCkptRaw h w none) → ∀ k,
        (clearState step sm f g i vs h' k).1 v = h v ∨
        (v ∈ w :: vs ∧ (clearState step sm f g i vs h' k).1 v = { h v with ckpt := none }) := by
      intro h' hh k
      rcases hh with rfl | rfl
      · rcases ih h' k with e | ⟨hm, e⟩
        · exact Or.inl e
        · exact Or.inr ⟨by simp [hm], e⟩
      · by_cases hw : v = w
        · subst hw
          rcases ih (setCkptRaw h v none) k with e | ⟨hm, e⟩
          · exact Or.inr ⟨by simp, by rw [e]; simp [setCkptRaw]⟩
          · exact Or.inr ⟨by simp, by rw [e]; simp [setCkptRaw]⟩
        · have e0 : setCkptRaw h w none v = h v := by simp [setCkptRaw, hw]
          rcases ih (setCkptRaw h w none) k with e | ⟨hm, e⟩
          · exact Or.inl (e.trans e0)
          · exact Or.inr ⟨by simp [hm], by rw [e, e0]⟩
    split
    · exact Or.inl rfl
    · split
      · apply key
        split
        · exact Or.inr rfl
        · exact Or.inl rfl
      · split
        · exact key h (Or.inl rfl) _
        · exact key _ (Or.inr rfl) _

/-- What a forward step does: the blocks are recomputed, the step may store values computed from that, and then
some variables are forgotten, none of which is to be kept. -/
theorem forwardStep_ok {k : Nat} {first wi wa : Bool} {st : Storage} {keepJ : List BV}
    {τ τ' : CTape V T A} (h : forwardStep k first wi wa st keepJ τ = .ok τ') :
    ∃ s, τ.steps[k]? = some s ∧
      τ'.steps = τ.steps.set k (if st ≠ .work then
        s.checkpoint (wi && first) wa τ.mgr.globalDeps (recompute s.blocks τ.heap) else s) ∧
      (∃ b, τ'.mgr = { τ.mgr with keepInit := b }) ∧ τ'.eager = τ.eager ∧
      ∀ v, τ'.heap v = recompute s.blocks τ.heap v ∨
        (τ'.heap v = { recompute s.blocks τ.heap v with ckpt := none } ∧ v ∉ τ.toKeep k keepJ ∧
          ((v ∈ s.state.elems ∧ v ∉ τ.mgr.globalDeps) ∨ v ∈ s.outs)) := by
  unfold forwardStep at h
  split at h
  · cases h
  · rename_i s hs
    split at h
    · cases h
    · simp only [Except.ok.injEq] at h
      subst h
      refine ⟨s, hs, rfl, ⟨_, rfl⟩, rfl, fun v => ?_⟩
      simp only [clearAll_apply]
      generalize hr : clearState k τ.mgr.singleMem _ _ _ _ _ _ = r
      have hc : r.1 v = recompute s.blocks τ.heap v ∨
          (v ∈ s.state.elems.filter (fun v => v ∉ τ.toKeep k keepJ ∧ v ∉ τ.mgr.globalDeps) ∧
            r.1 v = { recompute s.blocks τ.heap v with ckpt := none }) := by
        rw [← hr]
        exact clearState_apply _ _ _ _ _ _ _ _ v
      split
      · rename_i hm
        simp only [List.mem_filter, decide_eq_true_eq] at hm
        refine Or.inr ⟨?_, hm.2.1, Or.inr hm.1⟩
        rcases hc with e | ⟨_, e⟩ <;> rw [e]
      · rcases hc with e | ⟨hm, e⟩
        · exact Or.inl e
        · simp only [List.mem_filter, decide_eq_true_eq] at hm
          exact Or.inr ⟨e, hm.2.1, Or.inl ⟨hm.1, hm.2.2⟩⟩

theorem resetOuts_apply (clear : Bool) (keep vs : List BV) (h : Heap V T A) (v : BV) :
    vs.foldl (resetOut clear keep) h v =
      if v ∈ vs then resetOut clear keep h v v else h v := by
  induction vs generalizing h with
  | nil => simp
  | cons w vs ih =>
    rw [List.foldl_cons, ih]
    by_cases hw : v = w
    · subst hw
      simp only [List.mem_cons, true_or, if_true]
      split
      · unfold resetOut
        simp only [Function.update_self]
        cases (h v).isControl <;> split <;> simp_all
      · rfl
    · have e : resetOut clear keep h w v = h v := by simp [resetOut, hw]
      have e' : resetOut clear keep (resetOut clear keep h w) v v = resetOut clear keep h v v := by
        unfold resetOut at e ⊢
        simp only [Function.update_self, Function.update_of_ne hw]
      simp only [List.mem_cons, hw, false_or, e, e']

theorem reverseBlocks_heap [Add A] (m : Bool) (s : CStep V T A) (h : Heap V T A) :
    (reverseBlocks m s h).2 = evaluateAdj s.blocks m h := by
  unfold reverseBlocks evaluateAdj
  generalize s.blocks.reverse = l
  have : ∀ (l : Blocks V T A) (p : CStep V T A × Heap V T A),
      (l.foldl (fun p b => (if s.revised = true then p.1 else reviseBlock (b.evaluateAdj m p.2) p.1 b,
        b.evaluateAdj m p.2)) p).2 = l.foldl (fun h b => b.evaluateAdj m h) p.2 := by
    intro l
    induction l with
    | nil => intro p; rfl
    | cons b l ih => intro p; rw [List.foldl_cons, List.foldl_cons, ih]
  exact this l (s, h)

theorem mem_foldl_add (f : BV → Bool) (vs : List BV) (a : OSet BV) (v : BV) :
    v ∈ (vs.foldl (fun a d => if f d then a.add d else a) a).elems ↔
      v ∈ a.elems ∨ (v ∈ vs ∧ f v = true) := by
  induction vs generalizing a with
  | nil => simp
  | cons w vs ih =>
    rw [List.foldl_cons, ih]
    cases hf : f w
    · simp only [Bool.false_eq_true, if_false, List.mem_cons]
      constructor
      · rintro (h | ⟨h1, h2⟩)
        · exact Or.inl h
        · exact Or.inr ⟨Or.inr h1, h2⟩
      · rintro (h | ⟨rfl | h1, h2⟩)
        · exact Or.inl h
        · rw [hf] at h2; cases h2
        · exact Or.inr ⟨h1, h2⟩
    · have : v ∈ (a.add w).elems ↔ v ∈ a.elems ∨ v = w := by
        unfold OSet.add
        split
        · rename_i hw
          constructor
          · exact Or.inl
          · rintro (h | rfl)
            · exact h
            · exact hw
        · simp
      simp only [if_true, this, List.mem_cons]
      constructor
      · rintro ((h | rfl) | ⟨h1, h2⟩)
        · exact Or.inl h
        · exact Or.inr ⟨Or.inl rfl, hf⟩
        · exact Or.inr ⟨Or.inr h1, h2⟩
      · rintro (h | ⟨rfl | h1, h2⟩)
        · exact Or.inl (Or.inl h)
        · exact Or.inl (Or.inr rfl)
        · exact Or.inr ⟨h1, h2⟩

/-- Discarding keeps every other element (duplicates cannot occur, but are harmless here). -/
theorem mem_foldl_discard_of (f : BV → Bool) (vs : List BV) (a : OSet BV) (v : BV) (h : v ∈ a.elems)
    (hv : v ∈ vs → f v = true) :
    v ∈ (vs.foldl (fun a o => if f o then a else a.discard o) a).elems := by
  induction vs generalizing a with
  | nil => exact h
  | cons w vs ih =>
    rw [List.foldl_cons]
    apply ih _ _ (fun hm => hv (by simp [hm]))
    split
    · exact h
    · rename_i hf
      have hne : v ≠ w := by
        rintro rfl
        exact hf (hv (by simp))
      unfold OSet.discard OSet.remove
      split
      · simp only [Option.getD_some]
        exact (List.mem_erase_of_ne hne).2 h
      · exact h

/-- After its first adjoint evaluation a step's adjoint dependencies contain every marked variable its blocks
use, and those of its outputs that were there and are marked. -/
theorem reverseBlocks_adjDeps [Add A] (m : Bool) (s : CStep V T A) (h : Heap V T A)
    (hrev : s.revised = false) (v : BV) (hm : (h v).marked = true)
    (hv : v ∈ s.adjDeps.elems ∨ ∃ b ∈ s.blocks, v ∈ b.deps) :
    v ∈ (reverseBlocks m s h).1.adjDeps.elems := by
  unfold reverseBlocks
  simp only [hrev, Bool.false_eq_true, if_false]
  have hv : v ∈ s.adjDeps.elems ∨ ∃ b ∈ s.blocks.reverse, v ∈ b.deps := by simpa using hv
  revert hv
  generalize s.blocks.reverse = l
  have key : ∀ (l : Blocks V T A) (p : CStep V T A × Heap V T A), (p.2 v).marked = true →
      (v ∈ p.1.adjDeps.elems ∨ ∃ b ∈ l, v ∈ b.deps) →
      v ∈ (l.foldl (fun p b => (reviseBlock (b.evaluateAdj m p.2) p.1 b, b.evaluateAdj m p.2)) p).1.adjDeps.elems := by
    intro l
    induction l with
    | nil =>
      intro p _ hv
      rcases hv with hv | ⟨b, hb, _⟩
      · exact hv
      · cases hb
    | cons b l ih =>
      intro p hm hv
      rw [List.foldl_cons]
      have hmk : (b.evaluateAdj m p.2 v).marked = true := by rw [Block.evaluateAdj_apply]; exact hm
      apply ih _ hmk
      rcases hv with hv | ⟨b', hb', hd⟩
      · left
        unfold reviseBlock
        apply mem_foldl_discard_of (fun o => ((b.evaluateAdj m p.2) o).marked) _ _ _ _ (fun _ => hmk)
        rw [mem_foldl_add (fun d => ((b.evaluateAdj m p.2) d).marked)]
        exact Or.inl hv
      · rcases List.mem_cons.1 hb' with rfl | hb'
        · left
          unfold reviseBlock
          apply mem_foldl_discard_of (fun o => ((b'.evaluateAdj m p.2) o).marked) _ _ _ _ (fun _ => hmk)
          rw [mem_foldl_add (fun d => ((b'.evaluateAdj m p.2) d).marked)]
          exact Or.inr ⟨hd, hmk⟩
        · exact Or.inr ⟨b', hb', hd⟩
  exact key l (s, h) hm

theorem reverseBlocks_frame [Add A] (m : Bool) (s : CStep V T A) (h : Heap V T A) :
    (reverseBlocks m s h).1.blocks = s.blocks ∧ (reverseBlocks m s h).1.state = s.state ∧
    (reverseBlocks m s h).1.ckpt = s.ckpt ∧
    (s.revised = true → (reverseBlocks m s h).1 = s) := by
  unfold reverseBlocks
  generalize s.blocks.reverse = l
  have key : ∀ (l : Blocks V T A) (p : CStep V T A × Heap V T A),
      let q := l.foldl (fun p b => (if s.revised = true then p.1 else reviseBlock (b.evaluateAdj m p.2) p.1 b,
        b.evaluateAdj m p.2)) p
      q.1.blocks = p.1.blocks ∧ q.1.state = p.1.state ∧ q.1.ckpt = p.1.ckpt ∧
      (s.revised = true → q.1 = p.1) := by
    intro l
    induction l with
    | nil => intro p; exact ⟨rfl, rfl, rfl, fun _ => rfl⟩
    | cons b l ih =>
      intro p
      simp only [List.foldl_cons]
      obtain ⟨h1, h2, h3, h4⟩ := ih (if s.revised = true then p.1 else reviseBlock (b.evaluateAdj m p.2) p.1 b,
        b.evaluateAdj m p.2)
      refine ⟨h1.trans ?_, h2.trans ?_, h3.trans ?_, fun hr => (h4 hr).trans ?_⟩
      · dsimp only; split <;> rfl
      · dsimp only; split <;> rfl
      · dsimp only; split <;> rfl
      · simp [hr]
  exact key l (s, h)

/-- What reversing a step does. -/
theorem reverseStep_ok [Add A] {k : Nat} {clear m : Bool} {τ τ' : CTape V T A}
    (h : reverseStep k clear m τ = .ok τ') :
    ∃ s s', τ.steps[k]? = some s ∧ τ'.steps = τ.steps.set k s' ∧ s'.blocks = s.blocks ∧
      s'.state = s.state ∧ s'.ckpt = s.ckpt ∧ s'.revised = true ∧
      (s.revised = true → s'.adjDeps = s.adjDeps) ∧
      (s.revised = false → ∀ v, (τ.heap v).marked = true →
        (v ∈ s.adjDeps.elems ∨ ∃ b ∈ s.blocks, v ∈ b.deps) → v ∈ s'.adjDeps.elems) ∧
      τ'.mgr = τ.mgr ∧ τ'.eager = τ.eager ∧
      ∀ v, τ'.heap v = if v ∈ s.outs then
          resetOut clear s.state.elems (evaluateAdj s.blocks m τ.heap) v v
        else evaluateAdj s.blocks m τ.heap v := by
  unfold reverseStep at h
  split at h
  · cases h
  · rename_i s hs
    simp only [Except.ok.injEq] at h
    subst h
    obtain ⟨h1, h2, h3, h4⟩ := reverseBlocks_frame m s τ.heap
    refine ⟨s, { (reverseBlocks m s τ.heap).1 with revised := true }, hs, rfl, h1, h2, h3, rfl, ?_, ?_,
      rfl, rfl, fun v => ?_⟩
    · intro hr; show (reverseBlocks m s τ.heap).1.adjDeps = _; rw [h4 hr]
    · intro hr v hm hv; exact reverseBlocks_adjDeps m s τ.heap hr v hm hv
    · simp only [resetOuts_apply, reverseBlocks_heap]

end CTape
end Pyadjoint
