import Verif.Proofs.CkptGood

/-! # Reversing the steps one after the other gives the adjoint values of the whole tape -/

namespace Pyadjoint

variable {V T A : Type*}

/-- The adjoint sweep looks only at values, markings and adjoint values of the variables of its blocks. -/
theorem evaluateAdj_congr_on [Add A] {bs : Blocks V T A} {m : Bool} {h h' : Heap V T A} {S : BV → Prop}
    (hS : ∀ b ∈ bs, (∀ d ∈ b.deps, S d) ∧ ∀ o ∈ b.outs, S o)
    (hv : ∀ b ∈ bs, ∀ d ∈ b.deps, saved h d = saved h' d)
    (hm : ∀ v, S v → (h v).marked = (h' v).marked) (ha : ∀ v, S v → (h v).adj = (h' v).adj) :
    ∀ v, S v → (evaluateAdj bs m h v).adj = (evaluateAdj bs m h' v).adj := by
  induction bs with
  | nil => exact ha
  | cons b bs ih =>
    intro v hSv
    have ih := ih (fun b hb => hS b (by simp [hb])) (fun b hb => hv b (by simp [hb]))
    rw [evaluateAdj_cons, evaluateAdj_cons, Block.evaluateAdj_apply, Block.evaluateAdj_apply]
    obtain ⟨hd, ho⟩ := hS b (by simp)
    have hvb := hv b (by simp)
    have e1 : b.outs.map (fun o => (evaluateAdj bs m h o).adj) = b.outs.map (fun o => (evaluateAdj bs m h' o).adj) :=
      List.map_congr_left fun o h => ih o (ho o h)
    have e2 : b.deps.map (saved (evaluateAdj bs m h)) = b.deps.map (saved (evaluateAdj bs m h')) := by
      refine List.map_congr_left fun d h1 => ?_
      have k : ∀ g : Heap V T A, saved (evaluateAdj bs m g) d = saved g d := by
        intro g
        obtain ⟨a, e⟩ := evaluateAdj_frame bs m g d
        exact saved_congr (by rw [e]) (by rw [e])
      rw [k, k]
      exact hvb d h1
    have hmk : ∀ (g : Heap V T A) (v : BV), (evaluateAdj bs m g v).marked = (g v).marked := by
      intro g v
      obtain ⟨a, e⟩ := evaluateAdj_frame bs m g v
      rw [e]
    dsimp only
    unfold Block.adjAfter
    simp only [e1, e2, hmk, hm v hSv, ih v hSv]

theorem evaluateAdj_append' [Add A] (bs bs' : Blocks V T A) (m : Bool) (h : Heap V T A) :
    evaluateAdj (bs ++ bs') m h = evaluateAdj bs m (evaluateAdj bs' m h) := by
  unfold evaluateAdj
  rw [List.reverse_append, List.foldl_append]

namespace CTape

/-- The blocks of the steps from `k` on. -/
def blocksFrom (τ : CTape V T A) (k : Nat) : Blocks V T A := (τ.steps.drop k).flatMap (·.blocks)

theorem Shape.blocksFrom {τ τ' : CTape V T A} (h : Shape τ τ') (k : Nat) :
    τ'.blocksFrom k = τ.blocksFrom k := by
  have e : ∀ l : List (CStep V T A), l.flatMap (·.blocks) = (l.map static).flatMap (·.1) := by
    intro l
    rw [List.flatMap_map]
    rfl
  unfold CTape.blocksFrom
  rw [e, e, List.map_drop, List.map_drop, h.steps]

theorem blocksFrom_zero (τ : CTape V T A) : τ.blocksFrom 0 = τ.blocks := by
  unfold blocksFrom blocks
  rw [List.drop_zero]

theorem blocksFrom_eq {τ : CTape V T A} {k : Nat} {s : CStep V T A} (hs : τ.steps[k]? = some s) :
    τ.blocksFrom k = s.blocks ++ τ.blocksFrom (k + 1) := by
  obtain ⟨hk, rfl⟩ := List.getElem?_eq_some_iff.1 hs
  unfold blocksFrom
  rw [List.drop_eq_getElem_cons hk, List.flatMap_cons]

theorem blocks_split (τ : CTape V T A) (k : Nat) :
    ∃ pre, τ.blocks = pre ++ τ.blocksFrom k := by
  refine ⟨(τ.steps.take k).flatMap (·.blocks), ?_⟩
  unfold blocks blocksFrom
  rw [← List.flatMap_append, List.take_append_drop]

/-- Steps from `k` on have been reversed: adjoint values are those of the sweep `evaluateAdj` from the heap `g`, except
for the outputs of these steps that are not controls. -/
def AdjInv [Add A] (m : Bool) (g : Heap V T A) (k : Nat) (τ : CTape V T A) : Prop :=
  ∀ v, ((τ.heap v).isControl = true ∨ ∀ b ∈ τ.blocksFrom k, v ∉ b.outs) →
    (τ.heap v).adj = (evaluateAdj (τ.blocksFrom k) m g v).adj

theorem AdjInv.shape [Add A] {m : Bool} {g : Heap V T A} {k : Nat} {τ τ' : CTape V T A} (h : AdjInv m g k τ)
    (hs : Shape τ τ') (ha : ∀ v, (τ'.heap v).adj = (τ.heap v).adj) : AdjInv m g k τ' := by
  intro v hv
  rw [hs.blocksFrom, hs.control] at hv
  rw [ha, h v hv, hs.blocksFrom]

theorem reverseStep_adj [Add A] {k : Nat} {clear m : Bool} {g : Heap V T A} {τ τ' : CTape V T A}
    (h : reverseStep k clear m τ = .ok τ') (wf : WF τ.blocks)
    (hmark : ∀ v, (τ.heap v).marked = (g v).marked)
    (hval : ∀ s, τ.steps[k]? = some s → ∀ b ∈ s.blocks, ∀ d ∈ b.deps, saved τ.heap d = saved g d)
    (hinv : AdjInv m g (k + 1) τ) : AdjInv m g k τ' := by
  have hshape := reverseStep_shape h
  obtain ⟨s, s', hs, hst, hb, hss, hck, -, -, -, hm, -, hv⟩ := reverseStep_ok h
  intro v hvS
  rw [hshape.blocksFrom, hshape.control, blocksFrom_eq hs] at hvS
  rw [hshape.blocksFrom, blocksFrom_eq hs, evaluateAdj_append']
  obtain ⟨pre, hpre⟩ := blocks_split τ k
  rw [blocksFrom_eq hs] at hpre
  have hlater : ∀ b ∈ s.blocks, ∀ b' ∈ τ.blocksFrom (k + 1),
      (∀ d ∈ b.deps, d ∉ b'.outs) ∧ ∀ o ∈ b.outs, o ∉ b'.outs := by
    have := wf.later
    rw [hpre] at this
    exact (List.pairwise_append.1 (List.pairwise_append.1 this).2.1).2.2
  have key : ∀ v, ((τ.heap v).isControl = true ∨ ∀ b ∈ τ.blocksFrom (k + 1), v ∉ b.outs) →
      (evaluateAdj s.blocks m τ.heap v).adj =
        (evaluateAdj s.blocks m (evaluateAdj (τ.blocksFrom (k + 1)) m g) v).adj := by
    refine evaluateAdj_congr_on (fun b hb => ⟨fun d hd => Or.inr fun b' hb' => (hlater b hb b' hb').1 d hd,
      fun o ho => Or.inr fun b' hb' => (hlater b hb b' hb').2 o ho⟩) (fun b hb d hd => ?_) (fun v _ => ?_) hinv
    · rw [hval s hs b hb d hd]
      obtain ⟨a, e⟩ := evaluateAdj_frame (τ.blocksFrom (k + 1)) m g d
      exact saved_congr (by rw [e]) (by rw [e])
    · obtain ⟨a, e⟩ := evaluateAdj_frame (τ.blocksFrom (k + 1)) m g v
      rw [e]; exact hmark v
  have hsv : (τ.heap v).isControl = true ∨ ∀ b ∈ τ.blocksFrom (k + 1), v ∉ b.outs := by
    rcases hvS with h | h
    · exact Or.inl h
    · exact Or.inr fun b hb => h b (by simp [hb])
  rw [hv v, ← key v hsv]
  split
  · rename_i ho
    rcases hvS with hc | hn
    · obtain ⟨a, e⟩ := evaluateAdj_frame s.blocks m τ.heap v
      have hc' : (evaluateAdj s.blocks m τ.heap v).isControl = true := by rw [e]; exact hc
      unfold resetOut
      simp only [Function.update_self, hc', if_true]
      split <;> rfl
    · obtain ⟨b, hb, hbo⟩ := CStep.mem_outs.1 ho
      exact absurd hbo (hn b (by simp [hb]))
  · rfl

/-- Actions other than reversals leave the adjoint values alone. -/
theorem process_adj_frame [Add A] {m : Bool} {keepJ : List BV} {a : Action} {τ τ' : CTape V T A}
    (h : process m keepJ τ a = .ok τ') (ha : ∀ n1 n0 c, a ≠ .reverse n1 n0 c) :
    ∀ v, (τ'.heap v).adj = (τ.heap v).adj := by
  cases a with
  | forward n0 n1 wi wa st =>
    exact forwardSteps_ind (R := fun τ τ' => ∀ v, (τ'.heap v).adj = (τ.heap v).adj) (fun _ _ => rfl)
      (fun _ _ _ h h' v => (h' v).trans (h v))
      (fun k τ τ' h v => by obtain ⟨c, e⟩ := forwardStep_frame h v; rw [e]) h
  | reverse n1 n0 clear => exact absurd rfl (ha n1 n0 clear)
  | copy n src =>
    simp only [process] at h
    split at h
    · cases h
    · rename_i s hs
      cases h
      intro v
      obtain ⟨c, e⟩ := restore_frame s τ.heap v
      show (s.restore τ.heap v).adj = _
      rw [e]
  | move n src =>
    simp only [process] at h
    split at h
    · cases h
    · rename_i s hs
      cases h
      intro v
      obtain ⟨c, e⟩ := restore_frame s τ.heap v
      show (s.restore τ.heap v).adj = _
      rw [e]
  | endForward => cases h; exact fun _ => rfl
  | endReverse => cases h; exact fun _ => rfl

/-- The steps `n - 1`, …, `0`. -/
def countdown (n : Nat) : List Nat := (List.range n).reverse

theorem countdown_succ (n : Nat) : countdown (n + 1) = n :: countdown n := by
  unfold countdown
  rw [List.range_succ, List.reverse_append]
  rfl

theorem countdown_cons {n k : Nat} {l : List Nat} (h : k :: l = countdown n) :
    n = k + 1 ∧ l = countdown k := by
  cases n with
  | zero => cases h
  | succ n =>
    rw [countdown_succ] at h
    simp only [List.cons.injEq] at h
    obtain ⟨rfl, rfl⟩ := h
    exact ⟨rfl, rfl⟩

/-- What the sweep maintains when all values are the recorded ones. -/
structure RInv [Add A] (m : Bool) (out : BV → V) (g : Heap V T A) (k : Nat) (τ : CTape V T A) : Prop where
  wf : WF τ.blocks
  stable : Stable (fun _ => True) τ.blocks out
  clean : Clean (fun _ => True) out τ
  mark : ∀ v, (τ.heap v).marked = (g v).marked
  adj : AdjInv m g k τ

theorem RInv.evolve [Add A] {m : Bool} {out : BV → V} {g : Heap V T A} {k : Nat} {τ τ' : CTape V T A}
    (h : RInv m out g k τ) (hs : StaysClean (fun _ => True) out τ τ')
    (ha : ∀ v, (τ'.heap v).adj = (τ.heap v).adj) : RInv m out g k τ' :=
  ⟨by rw [hs.1.blocks]; exact h.wf, by rw [hs.1.blocks]; exact h.stable, hs.2 h.stable h.clean,
    fun v => (hs.1.marked v).trans (h.mark v), h.adj.shape hs.1 ha⟩

theorem reverseSteps_inv [Add A] {m clear : Bool} {out : BV → V} {g : Heap V T A}
    (hg : ∀ v, saved g v = out v) (l : List Nat) {rest : List Nat} {n : Nat} {τ τ' : CTape V T A}
    (hl : l ++ rest = countdown n) (hinv : RInv m out g n τ)
    (h : l.foldlM (fun τ k => reverseStep k clear m τ) τ = .ok τ') :
    ∃ n', rest = countdown n' ∧ RInv m out g n' τ' := by
  induction l generalizing n τ with
  | nil => cases h; exact ⟨n, hl, hinv⟩
  | cons k l ih =>
    rw [List.cons_append] at hl
    obtain ⟨rfl, hl'⟩ := countdown_cons hl
    rw [List.foldlM_cons] at h
    cases h1 : reverseStep k clear m τ with
    | error e => rw [h1] at h; cases h
    | ok τ₁ =>
      rw [h1] at h
      refine ih hl' ?_ h
      have hsh := reverseStep_shape h1
      have hcl := reverseStep_clean hinv.clean h1
      refine ⟨by rw [hsh.blocks]; exact hinv.wf, by rw [hsh.blocks]; exact hinv.stable, hcl,
        fun v => (hsh.marked v).trans (hinv.mark v), ?_⟩
      refine reverseStep_adj h1 hinv.wf hinv.mark (fun s hs b hb d hd => ?_) hinv.adj
      rw [hg d, hinv.clean.cleanHeap.saved trivial]

theorem process_inv [Add A] {m : Bool} {out : BV → V} {g : Heap V T A} (hg : ∀ v, saved g v = out v)
    {a : Action} {as : List Action} {keepJ : List BV} {n : Nat} {τ τ' : CTape V T A}
    (hl : reversedSteps (a :: as) = countdown n) (hinv : RInv m out g n τ)
    (h : process m keepJ τ a = .ok τ') : ∃ n', reversedSteps as = countdown n' ∧ RInv m out g n' τ' := by
  have other : (∀ n1 n0 c, a ≠ .reverse n1 n0 c) → reversedSteps (a :: as) = reversedSteps as →
      ∃ n', reversedSteps as = countdown n' ∧ RInv m out g n' τ' := by
    intro hne he
    exact ⟨n, he ▸ hl, hinv.evolve (process_clean _ _ h) (process_adj_frame h hne)⟩
  cases a with
  | reverse n1 n0 clear => exact reverseSteps_inv hg (reverseRange n1 n0) hl hinv h
  | forward => exact other (fun _ _ _ => Action.noConfusion) rfl
  | copy => exact other (fun _ _ _ => Action.noConfusion) rfl
  | move => exact other (fun _ _ _ => Action.noConfusion) rfl
  | endForward => exact other (fun _ _ _ => Action.noConfusion) rfl
  | endReverse => exact other (fun _ _ _ => Action.noConfusion) rfl

theorem perform_inv [Add A] {m : Bool} {out : BV → V} {g : Heap V T A} (hg : ∀ v, saved g v = out v)
    {a : Action} {as : List Action} {keepJ : List BV} {n : Nat} {τ τ' : CTape V T A}
    (hl : reversedSteps (a :: as) = countdown n) (hinv : RInv m out g n τ)
    (h : perform m keepJ τ a = .ok τ') : ∃ n', reversedSteps as = countdown n' ∧ RInv m out g n' τ' := by
  refine process_inv hg hl (τ := { τ with mgr := { τ.mgr with current := a } }) ?_ h
  exact ⟨hinv.wf, hinv.stable, ⟨hinv.clean.output, hinv.clean.heap, hinv.clean.stored⟩, hinv.mark, hinv.adj⟩

end CTape

/-- The actions up to and including the first `EndReverse`. -/
def untilEndReverse : List Action → List Action
  | [] => []
  | a :: as => if a = .endReverse then [a] else a :: untilEndReverse as

namespace CTape

theorem process_current [Add A] {m : Bool} {keepJ : List BV} {a : Action} {τ τ' : CTape V T A}
    (h : process m keepJ τ a = .ok τ') : τ'.mgr.current = τ.mgr.current := by
  cases a with
  | forward n0 n1 wi wa st =>
    refine forwardSteps_ind (R := fun τ τ' => τ'.mgr.current = τ.mgr.current) (fun _ => rfl)
      (fun _ _ _ h h' => h'.trans h) (fun k τ τ' h => ?_) h
    obtain ⟨s, -, -, ⟨b, e⟩, -⟩ := forwardStep_ok h
    rw [e]
  | reverse n1 n0 clear =>
    refine foldlM_ind (R := fun τ τ' => τ'.mgr.current = τ.mgr.current) (fun _ => rfl)
      (fun _ _ _ h h' => h'.trans h) _ (fun τ τ' k _ h => ?_) h
    obtain ⟨s, s', -, -, -, -, -, -, -, -, e, -⟩ := reverseStep_ok h
    rw [e]
  | copy n src =>
    simp only [process] at h
    split at h
    · cases h
    · cases h; rfl
  | move n src =>
    simp only [process] at h
    split at h
    · cases h
    · cases h; rfl
  | endForward => cases h; rfl
  | endReverse => cases h; rfl

theorem firstReverse_inv [Add A] {m : Bool} {out : BV → V} {g : Heap V T A} (hg : ∀ v, saved g v = out v)
    {acts : List Action} {n : Nat} {τ τ' : CTape V T A} (hcur : τ.mgr.current ≠ .endReverse)
    (hl : reversedSteps (untilEndReverse acts) = countdown n) (hinv : RInv m out g n τ)
    (h : firstReverse m acts τ = .ok τ') : RInv m out g 0 τ' := by
  induction acts generalizing n τ with
  | nil =>
    unfold firstReverse at h
    rw [if_neg hcur] at h
    cases h
  | cons a acts ih =>
    unfold firstReverse at h
    rw [if_neg hcur] at h
    dsimp only at h
    split at h
    · cases h
    · rename_i τ₁ h₁
      have hc₁ : τ₁.mgr.current = a := process_current (by unfold perform at h₁; exact h₁)
      have hinv₀ : RInv m out g n { τ with mgr := { τ.mgr with rev := τ.mgr.rev ++ [a] } } :=
        ⟨hinv.wf, hinv.stable, ⟨hinv.clean.output, hinv.clean.heap, hinv.clean.stored⟩, hinv.mark, hinv.adj⟩
      unfold untilEndReverse at hl
      split at hl
      · rename_i ha
        obtain ⟨n', g1, g2⟩ := perform_inv hg hl hinv₀ h₁
        have : n' = 0 := by
          cases n' with
          | zero => rfl
          | succ n' => rw [countdown_succ] at g1; cases g1
        subst this
        unfold firstReverse at h
        rw [if_pos (by rw [hc₁]; exact ha)] at h
        cases h
        exact ⟨g2.wf, g2.stable, ⟨g2.clean.output, g2.clean.heap, g2.clean.stored⟩, g2.mark, g2.adj⟩
      · rename_i ha
        obtain ⟨n', g1, g2⟩ := perform_inv hg hl hinv₀ h₁
        exact ih (by rw [hc₁]; exact ha) g1 g2 h

end CTape
end Pyadjoint
