import Verif.Props.CheckpointStored

/-!
# Reversing the steps when the adjoints read only values that do not depend on the controls

The invariant of `Verif.Proofs.CkptAdjoint` for a set `P` of variables whose values are the recorded ones: other values may be anything, as
long as the adjoint contributions to variables outside of `P` are computed from values in `P` only.
-/

namespace Pyadjoint

variable {V T A : Type*}

/-- The adjoint contributions of the block to dependencies outside of `P` are computed from the values of dependencies in `P` only. -/
def AdjReads (P : BV → Prop) (b : Block V T A) : Prop :=
  ∀ x y : BV → V, (∀ d ∈ b.deps, P d → x d = y d) → ∀ (as : List (Option A)) (i : Nat) (d : BV), b.deps[i]? = some d → ¬ P d →
    b.adjC (b.deps.map x) as i = b.adjC (b.deps.map y) as i

theorem evaluateAdj_congr_reads [Add A] {P : BV → Prop} {bs : Blocks V T A} {m : Bool} {h h' : Heap V T A} {S : BV → Prop}
    (hread : ∀ b ∈ bs, AdjReads P b) (hP : ∀ v, ((h v).marked || !m) = true → ¬ P v)
    (hS : ∀ b ∈ bs, (∀ d ∈ b.deps, S d) ∧ ∀ o ∈ b.outs, S o)
    (hv : ∀ d, P d → saved h d = saved h' d)
    (hm : ∀ v, S v → (h v).marked = (h' v).marked) (ha : ∀ v, S v → (h v).adj = (h' v).adj) :
    ∀ v, S v → (evaluateAdj bs m h v).adj = (evaluateAdj bs m h' v).adj := by
  induction bs with
  | nil => exact ha
  | cons b bs ih =>
    intro v hSv
    have ih := ih (fun b hb => hread b (by simp [hb])) (fun b hb => hS b (by simp [hb]))
    rw [evaluateAdj_cons, evaluateAdj_cons, Block.evaluateAdj_apply, Block.evaluateAdj_apply]
    obtain ⟨hd, ho⟩ := hS b (by simp)
    have e1 : b.outs.map (fun o => (evaluateAdj bs m h o).adj) = b.outs.map (fun o => (evaluateAdj bs m h' o).adj) :=
      List.map_congr_left fun o h => ih o (ho o h)
    have k : ∀ (g : Heap V T A) d, saved (evaluateAdj bs m g) d = saved g d := by
      intro g d
      obtain ⟨a, e⟩ := evaluateAdj_frame bs m g d
      exact saved_congr (by rw [e]) (by rw [e])
    have hmk : ∀ (g : Heap V T A) (v : BV), (evaluateAdj bs m g v).marked = (g v).marked := by
      intro g v
      obtain ⟨a, e⟩ := evaluateAdj_frame bs m g v
      rw [e]
    dsimp only
    unfold Block.adjAfter
    simp only [e1, hmk, ← hm v hSv, ih v hSv]
    by_cases hmv : ((h v).marked || !m) = true
    · simp only [hmv, if_true]
      have key : ∀ p ∈ entries b.deps v, b.adjC (b.deps.map (saved (evaluateAdj bs m h))) (b.outs.map fun o => (evaluateAdj bs m h' o).adj) p.2 =
          b.adjC (b.deps.map (saved (evaluateAdj bs m h'))) (b.outs.map fun o => (evaluateAdj bs m h' o).adj) p.2 := by
        rintro ⟨w, i⟩ hp
        unfold entries at hp
        rw [List.mem_filter] at hp
        obtain ⟨h1, h2⟩ := hp
        have hw : w = v := by simpa using h2
        subst hw
        refine hread b (by simp) _ _ (fun d _ hd => by rw [k, k]; exact hv d hd) _ i w ?_ (hP w hmv)
        obtain ⟨-, h3, h4⟩ := List.mem_zipIdx h1
        rw [List.getElem?_eq_getElem (by simpa using h3), h4]
        simp
      have fold : ∀ (l : List (BV × Nat)) (o : Option A) (f g : Nat → Option A), (∀ p ∈ l, f p.2 = g p.2) →
          l.foldl (fun o p => accum o (f p.2)) o = l.foldl (fun o p => accum o (g p.2)) o := by
        intro l
        induction l with
        | nil => intro o f g _; rfl
        | cons p l ihl =>
          intro o f g hfg
          rw [List.foldl_cons, List.foldl_cons, hfg p (by simp)]
          exact ihl _ f g fun q hq => hfg q (by simp [hq])
      rw [fold _ _ _ _ key]
    · simp only [hmv, if_false, Bool.false_eq_true]

namespace CTape

theorem reverseStep_aadj [Add A] {P : BV → Prop} {k : Nat} {clear m : Bool} {g : Heap V T A} {τ τ' : CTape V T A}
    (h : reverseStep k clear m τ = .ok τ') (wf : WF τ.blocks) (hread : ∀ b ∈ τ.blocks, AdjReads P b)
    (hP : ∀ v, ((g v).marked || !m) = true → ¬ P v)
    (hmark : ∀ v, (τ.heap v).marked = (g v).marked)
    (hval : ∀ v, P v → saved τ.heap v = saved g v)
    (hinv : AdjInv m g (k + 1) τ) : AdjInv m g k τ' := by
  have hshape := reverseStep_shape h
  obtain ⟨s, s', hs, hst, hb, hss, hck, -, -, -, hm, -, hv⟩ := reverseStep_ok h
  intro v hvS
  rw [hshape.blocksFrom, hshape.control, blocksFrom_eq hs] at hvS
  rw [hshape.blocksFrom, blocksFrom_eq hs, evaluateAdj_append']
  obtain ⟨pre, hpre⟩ := blocks_split τ k
  rw [blocksFrom_eq hs] at hpre
  have hlater : ∀ b ∈ s.blocks, ∀ b' ∈ τ.blocksFrom (k + 1),
      (∀ d ∈ b.deps, d ∉ b'.outs) ∧ ∀ o ∈ b.outs, o ∉ b'.outs := by
    have := wf.later
    rw [hpre] at this
    exact (List.pairwise_append.1 (List.pairwise_append.1 this).2.1).2.2
  have key : ∀ v, ((τ.heap v).isControl = true ∨ ∀ b ∈ τ.blocksFrom (k + 1), v ∉ b.outs) →
      (evaluateAdj s.blocks m τ.heap v).adj =
        (evaluateAdj s.blocks m (evaluateAdj (τ.blocksFrom (k + 1)) m g) v).adj := by
    refine evaluateAdj_congr_reads (P := P) (fun b hb => hread b (by rw [hpre]; simp [hb])) (fun v hv => hP v (by rw [← hmark v]; exact hv)) (fun b hb => ⟨fun d hd => Or.inr fun b' hb' => (hlater b hb b' hb').1 d hd,
      fun o ho => Or.inr fun b' hb' => (hlater b hb b' hb').2 o ho⟩) (fun d hd => ?_) (fun v _ => ?_) hinv
    · rw [hval d hd]
      obtain ⟨a, e⟩ := evaluateAdj_frame (τ.blocksFrom (k + 1)) m g d
      exact saved_congr (by rw [e]) (by rw [e])
    · obtain ⟨a, e⟩ := evaluateAdj_frame (τ.blocksFrom (k + 1)) m g v
      rw [e]; exact hmark v
  have hsv : (τ.heap v).isControl = true ∨ ∀ b ∈ τ.blocksFrom (k + 1), v ∉ b.outs := by
    rcases hvS with h | h
    · exact Or.inl h
    · exact Or.inr fun b hb => h b (by simp [hb])
  rw [hv v, ← key v hsv]
  split
  · rename_i ho
    rcases hvS with hc | hn
    · obtain ⟨a, e⟩ := evaluateAdj_frame s.blocks m τ.heap v
      have hc' : (evaluateAdj s.blocks m τ.heap v).isControl = true := by rw [e]; exact hc
      unfold resetOut
      simp only [Function.update_self, hc', if_true]
      split <;> rfl
    · obtain ⟨b, hb, hbo⟩ := CStep.mem_outs.1 ho
      exact absurd hbo (hn b (by simp [hb]))
  · rfl

/-- What the sweep maintains when the values of `P` are the recorded ones and the adjoints read only those. -/
structure AInv [Add A] (P : BV → Prop) (m : Bool) (out : BV → V) (g : Heap V T A) (k : Nat) (τ : CTape V T A) : Prop where
  wf : WF τ.blocks
  reads : ∀ b ∈ τ.blocks, AdjReads P b
  marks : ∀ v, ((g v).marked || !m) = true → ¬ P v
  stable : Stable P τ.blocks out
  clean : Clean P out τ
  mark : ∀ v, (τ.heap v).marked = (g v).marked
  adj : AdjInv m g k τ

theorem AInv.evolve [Add A] {P : BV → Prop} {m : Bool} {out : BV → V} {g : Heap V T A} {k : Nat} {τ τ' : CTape V T A}
    (h : AInv P m out g k τ) (hs : StaysClean P out τ τ')
    (ha : ∀ v, (τ'.heap v).adj = (τ.heap v).adj) : AInv P m out g k τ' :=
  ⟨by rw [hs.1.blocks]; exact h.wf, by rw [hs.1.blocks]; exact h.reads, h.marks, by rw [hs.1.blocks]; exact h.stable, hs.2 h.stable h.clean,
    fun v => (hs.1.marked v).trans (h.mark v), h.adj.shape hs.1 ha⟩

theorem reverseSteps_ainv [Add A] {P : BV → Prop} {m clear : Bool} {out : BV → V} {g : Heap V T A}
    (hg : ∀ v, P v → saved g v = out v) (l : List Nat) {rest : List Nat} {n : Nat} {τ τ' : CTape V T A}
    (hl : l ++ rest = countdown n) (hinv : AInv P m out g n τ)
    (h : l.foldlM (fun τ k => reverseStep k clear m τ) τ = .ok τ') :
    ∃ n', rest = countdown n' ∧ AInv P m out g n' τ' := by
  induction l generalizing n τ with
  | nil => cases h; exact ⟨n, hl, hinv⟩
  | cons k l ih =>
    rw [List.cons_append] at hl
    obtain ⟨rfl, hl'⟩ := countdown_cons hl
    rw [List.foldlM_cons] at h
    cases h1 : reverseStep k clear m τ with
    | error e => rw [h1] at h; cases h
    | ok τ₁ =>
      rw [h1] at h
      refine ih hl' ?_ h
      have hsh := reverseStep_shape h1
      have hcl := reverseStep_clean hinv.clean h1
      refine ⟨by rw [hsh.blocks]; exact hinv.wf, by rw [hsh.blocks]; exact hinv.reads, hinv.marks, by rw [hsh.blocks]; exact hinv.stable, hcl,
        fun v => (hsh.marked v).trans (hinv.mark v), ?_⟩
      refine reverseStep_aadj h1 hinv.wf hinv.reads hinv.marks hinv.mark (fun v hv => ?_) hinv.adj
      rw [hg v hv, hinv.clean.cleanHeap.saved hv]

theorem process_ainv [Add A] {P : BV → Prop} {m : Bool} {out : BV → V} {g : Heap V T A} (hg : ∀ v, P v → saved g v = out v)
    {a : Action} {as : List Action} {keepJ : List BV} {n : Nat} {τ τ' : CTape V T A}
    (hl : reversedSteps (a :: as) = countdown n) (hinv : AInv P m out g n τ)
    (h : process m keepJ τ a = .ok τ') : ∃ n', reversedSteps as = countdown n' ∧ AInv P m out g n' τ' := by
  have other : (∀ n1 n0 c, a ≠ .reverse n1 n0 c) → reversedSteps (a :: as) = reversedSteps as →
      ∃ n', reversedSteps as = countdown n' ∧ AInv P m out g n' τ' := by
    intro hne he
    exact ⟨n, he ▸ hl, hinv.evolve (process_clean P out h) (process_adj_frame h hne)⟩
  cases a with
  | reverse n1 n0 clear => exact reverseSteps_ainv hg (reverseRange n1 n0) hl hinv h
  | forward => exact other (fun _ _ _ => Action.noConfusion) rfl
  | copy => exact other (fun _ _ _ => Action.noConfusion) rfl
  | move => exact other (fun _ _ _ => Action.noConfusion) rfl
  | endForward => exact other (fun _ _ _ => Action.noConfusion) rfl
  | endReverse => exact other (fun _ _ _ => Action.noConfusion) rfl

theorem perform_ainv [Add A] {P : BV → Prop} {m : Bool} {out : BV → V} {g : Heap V T A} (hg : ∀ v, P v → saved g v = out v)
    {a : Action} {as : List Action} {keepJ : List BV} {n : Nat} {τ τ' : CTape V T A}
    (hl : reversedSteps (a :: as) = countdown n) (hinv : AInv P m out g n τ)
    (h : perform m keepJ τ a = .ok τ') : ∃ n', reversedSteps as = countdown n' ∧ AInv P m out g n' τ' := by
  refine process_ainv hg hl (τ := { τ with mgr := { τ.mgr with current := a } }) ?_ h
  exact ⟨hinv.wf, hinv.reads, hinv.marks, hinv.stable, ⟨hinv.clean.output, hinv.clean.heap, hinv.clean.stored⟩, hinv.mark, hinv.adj⟩

theorem firstReverse_ainv [Add A] {P : BV → Prop} {m : Bool} {out : BV → V} {g : Heap V T A} (hg : ∀ v, P v → saved g v = out v)
    {acts : List Action} {n : Nat} {τ τ' : CTape V T A} (hcur : τ.mgr.current ≠ .endReverse)
    (hl : reversedSteps (untilEndReverse acts) = countdown n) (hinv : AInv P m out g n τ)
    (h : firstReverse m acts τ = .ok τ') : AInv P m out g 0 τ' := by
  induction acts generalizing n τ with
  | nil =>
    unfold firstReverse at h
    rw [if_neg hcur] at h
    cases h
  | cons a acts ih =>
    unfold firstReverse at h
    rw [if_neg hcur] at h
    dsimp only at h
    split at h
    · cases h
    · rename_i τ₁ h₁
      have hc₁ : τ₁.mgr.current = a := process_current (by unfold perform at h₁; exact h₁)
      have hinv₀ : AInv P m out g n { τ with mgr := { τ.mgr with rev := τ.mgr.rev ++ [a] } } :=
        ⟨hinv.wf, hinv.reads, hinv.marks, hinv.stable, ⟨hinv.clean.output, hinv.clean.heap, hinv.clean.stored⟩, hinv.mark, hinv.adj⟩
      unfold untilEndReverse at hl
      split at hl
      · rename_i ha
        obtain ⟨n', g1, g2⟩ := perform_ainv hg hl hinv₀ h₁
        have : n' = 0 := by
          cases n' with
          | zero => rfl
          | succ n' => rw [countdown_succ] at g1; cases g1
        subst this
        unfold firstReverse at h
        rw [if_pos (by rw [hc₁]; exact ha)] at h
        cases h
        exact ⟨g2.wf, g2.reads, g2.marks, g2.stable, ⟨g2.clean.output, g2.clean.heap, g2.clean.stored⟩, g2.mark, g2.adj⟩
      · rename_i ha
        obtain ⟨n', g1, g2⟩ := perform_ainv hg hl hinv₀ h₁
        exact ih (by rw [hc₁]; exact ha) g1 g2 h

theorem processes_ainv [Add A] {P : BV → Prop} {m : Bool} {out : BV → V} {g : Heap V T A} (hg : ∀ v, P v → saved g v = out v)
    {keepJ : List BV} (l : List Action) {n : Nat} {τ τ' : CTape V T A}
    (hl : reversedSteps l = countdown n) (hinv : AInv P m out g n τ)
    (h : l.foldlM (process m keepJ) τ = .ok τ') : AInv P m out g 0 τ' := by
  induction l generalizing n τ with
  | nil =>
    cases h
    cases n with
    | zero => exact hinv
    | succ n => rw [countdown_succ] at hl; cases hl
  | cons a l ih =>
    rw [List.foldlM_cons] at h
    cases h₁ : process m keepJ τ a with
    | error e => rw [h₁] at h; cases h
    | ok τ₁ =>
      rw [h₁] at h
      obtain ⟨n', g1, g2⟩ := process_ainv hg hl hinv h₁
      exact ih g1 g2 h

/-- The tape at any time after recording, as long as the values of `P` are the recorded ones (`Ready` for all variables). -/
structure Kept (P : BV → Prop) (out : BV → V) (sch : Schedule) (bs : Blocks V T A) (τ : CTape V T A) : Prop where
  state : Taped P out sch bs τ ∨ (τ.mgr.mode ≠ .record ∧ ∃ N, Core P out N bs τ ∧ RevOK N τ)
  flags : ∀ v, (τ.heap v).isControl = false
  marks : ∀ v, (τ.heap v).marked = false

/-- An evaluation at any values of controls outside of `P` keeps the tape in order. -/
theorem rfCall_kept [Add A] [Mul V] {P : BV → Prop} {out : BV → V} {sch : Schedule} (hwf : sch.WellFormed)
    (hrev : sch.Reverses) {bs : Blocks V T A} (hst : Stable P bs out) {truthy : V → Bool} {J : BV}
    {cs : List BV} (hP : ∀ v, P v → v ∉ cs) {scale : V} {xs : List V} {τ τ' : CTape V T A} {y : V}
    (h : Kept P out sch bs τ) (hr : rfCall truthy J cs scale xs τ = .ok (y, τ')) :
    Kept P out sch bs τ' := by
  unfold rfCall at hr
  dsimp only at hr
  split at hr
  · cases hr
  · rename_i τ₂ h₂
    simp only [Except.ok.injEq, Prod.mk.injEq] at hr
    obtain ⟨-, rfl⟩ := hr
    unfold recomputeTape at h₂
    split at h₂
    · cases h₂
    · rename_i τ₁ h₁
      have hok := heapOK_call (P := P) (cs := cs) hP xs τ.heap
      obtain ⟨⟨N, c1, cr⟩, c2, c3⟩ := finishTaping_ready hwf hrev
        (h.state.imp (fun h => h.onHeap hok)
          (fun ⟨hm, N, hc, hv⟩ => ⟨hm, N, hc.onHeap hok, hv⟩)) h₁
      have c1' : Core P out N bs { τ₁ with mgr := { τ₁.mgr with mode := .recompute } } :=
        ⟨c1.pos, ⟨c1.live.dep, c1.live.carry, c1.live.init⟩, c1.total, c1.length, c1.fwd,
          ⟨c1.clean.output, c1.clean.heap, c1.clean.stored⟩, c1.blocks⟩
      have hs := forwardSweep_clean P out h₂
      have hm : τ₂.mgr.mode ≠ .record := forwardSweep_mode h₂ Mode.noConfusion
      have hrv : RevOK N τ₂ :=
        forwardSweep_revOK (τ := { τ₁ with mgr := { τ₁.mgr with mode := .recompute } }) c1.fwd h₂ cr
      refine ⟨Or.inr ⟨hm, N, (c1'.evolve hst hs).onHeap (heapOK_mark _ cs false _), hrv⟩, fun v => ?_,
        fun v => ?_⟩
      · show (markControls cs false τ₂.heap v).isControl = false
        rw [markControls_apply]
        split
        · rfl
        · rename_i hv
          rw [hs.1.control]
          obtain ⟨c, e⟩ := c3 v
          show (τ₁.heap v).isControl = false
          rw [e]
          show (markControls cs true (updateControls cs xs τ.heap) v).isControl = false
          rw [markControls_apply, if_neg hv, updateControls_isControl]
          exact h.flags v
      · have e1 : (markControls cs false τ₂.heap v).marked = (τ₂.heap v).marked := by
          rw [markControls_apply]; split <;> rfl
        show (markControls cs false τ₂.heap v).marked = false
        rw [e1, hs.1.marked]
        obtain ⟨c, e⟩ := c3 v
        show (τ₁.heap v).marked = false
        rw [e]
        show (markControls cs true (updateControls cs xs τ.heap) v).marked = false
        obtain ⟨c, e⟩ := updateControls_frame cs xs τ.heap v
        rw [markControls_apply]
        split <;> (rw [e]; exact h.marks v)

/-- A derivative keeps the tape in order, and is the one without checkpointing. -/
theorem rfDerivative_kept [Add A] [Zero A] {P : BV → Prop} {out : BV → V} {sch : Schedule} (hwf : sch.WellFormed)
    (hrev : sch.Reverses) {bs : Blocks V T A} (ssa : WF bs) (hst : Stable P bs out) {J : BV}
    {cs : List BV} {a : A} {τ τ' : CTape V T A} {ds : List A} (h : Kept P out sch bs τ)
    (hr : rfDerivative J cs a τ = .ok (ds, τ')) :
    Kept P out sch bs τ' ∧ ∀ h₀ : Heap V T A, (∀ b ∈ bs, AdjReads P b) → (∀ v ∈ findRelevantNodes bs cs, ¬ P v) →
      (∀ v, P v → saved h₀ v = out v) → (∀ v, (h₀ v).marked = false) →
      (∀ c ∈ cs, OnTape bs c ∨ c = J) → ds = (computeGradient bs J cs a h₀).1 := by
  classical
  have hbl : τ.blocks = bs := by
    rcases h.state with h | ⟨-, N, h, -⟩
    · exact h.blocks
    · exact h.blocks
  unfold rfDerivative at hr
  rw [hbl] at hr
  split at hr
  · cases hr
  · rename_i τ₃ h₃
    simp only [Except.ok.injEq, Prod.mk.injEq] at hr
    obtain ⟨rfl, rfl⟩ := hr
    unfold evaluateAdjTape at h₃
    split at h₃
    · cases h₃
    · rename_i τ₁ h₁
      split at h₃
      · cases h₃
      · split at h₃
        · cases h₃
        · rename_i τ₂ h₂
          cases h₃
          have hok := heapOK_seed P J cs a bs τ.heap
          obtain ⟨⟨N, c1, cr⟩, c2, c3⟩ := finishTaping_ready hwf hrev
            (h.state.imp (fun h => h.onHeap hok) (fun ⟨hm, N, hc, hv⟩ => ⟨hm, N, hc.onHeap hok, hv⟩)) h₁
          have hs := reverseSweep_clean P out h₂
          have c4 := c1.evolve hst hs
          have c4' : Core P out N bs { τ₂ with mgr := { τ₂.mgr with mode := .evaluateAdjoint } } :=
            ⟨c4.pos, ⟨c4.live.dep, c4.live.carry, c4.live.init⟩, c4.total, c4.length, c4.fwd,
              ⟨c4.clean.output, c4.clean.heap, c4.clean.stored⟩, c4.blocks⟩
          have hτ₁ : ∀ v, ∃ c, τ₁.heap v = { seedAdjoint J cs a bs τ.heap v with ckpt := c } := c3
          have hrv : RevOK N τ₂ := by
            right
            have hne : ∀ l, reversedSteps l = countdown N → l ≠ [] := by
              rintro l hl rfl
              have := congrArg List.length hl
              simp [reversedSteps, countdown] at this
              have := c1.pos
              omega
            unfold reverseSweep at h₂
            rcases cr with ⟨r1, r2, r3⟩ | ⟨r1, r2⟩
            · rw [if_neg (by simp [r1])] at h₂
              obtain ⟨e, -⟩ := firstReverse_rev r3 h₂
              rw [e, r1, List.nil_append]
              exact ⟨hne _ r2, r2⟩
            · rw [if_pos r1] at h₂
              rw [processes_rev h₂]
              exact ⟨r1, r2⟩
          refine ⟨⟨Or.inr ⟨Mode.noConfusion, N, c4'.onHeap (heapOK_unmark _ cs bs _), hrv⟩, fun v => ?_,
            fun v => ?_⟩, fun h₀ hread hPm hs₀ hm₀ hcs => ?_⟩
          · show (unmark cs bs τ₂.heap v).isControl = false
            obtain ⟨m, e⟩ := unmark_frame cs bs τ₂.heap v
            rw [e]
            dsimp only
            split
            · rfl
            · rename_i hv
              rw [hs.1.control]
              obtain ⟨c, e⟩ := hτ₁ v
              rw [e]
              dsimp only
              obtain ⟨x, m, e⟩ := seedAdjoint_frame J cs a bs τ.heap v
              rw [e]
              dsimp only
              rw [if_neg hv]
              exact h.flags v
          · show (unmark cs bs τ₂.heap v).marked = false
            unfold unmark
            rw [markAll_apply]
            split
            · rfl
            · rename_i hv
              have e1 : (markControls cs false τ₂.heap v).marked = (τ₂.heap v).marked := by
                rw [markControls_apply]; split <;> rfl
              rw [e1, hs.1.marked]
              obtain ⟨c, e⟩ := hτ₁ v
              rw [e]
              show (seedAdjoint J cs a bs τ.heap v).marked = false
              unfold seedAdjoint
              dsimp only
              rw [markControls_apply, markAll_apply, if_neg hv]
              have e2 : (resetVariables bs .adjoint τ.heap v).marked = false := by
                rw [resetVariables_apply]
                split <;> exact h.marks v
              by_cases hJ : v = J
              · subst hJ
                rw [Function.update_self]
                split <;> exact e2
              · rw [Function.update_of_ne hJ]
                split <;> exact e2
          · -- the reference
            have href : (computeGradient bs J cs a h₀).1 =
                cs.map (getDerivative (evaluateAdj bs true (seedAdjoint J cs a bs h₀))) := by
              unfold computeGradient computeGradientState markedAdjoint
              dsimp only
              refine List.map_congr_left fun c _ => ?_
              unfold getDerivative
              simp only [markAll_adj, markControls_adj]
              rfl
            rw [href]
            -- a heap with the recorded values and the state of the sweep
            have hg : ∀ v, P v → saved (fun v => { τ₁.heap v with ckpt := none } : Heap V T A) v = out v := by
              intro v _
              exact c1.clean.output v
            have hmarks : ∀ v, ((τ₁.heap v).marked || !true) = true → ¬ P v := by
              intro v hv
              obtain ⟨c, e⟩ := hτ₁ v
              rw [e] at hv
              have hv' : (seedAdjoint J cs a bs τ.heap v).marked = true := by simpa using hv
              rw [seedAdjoint_marked J cs a bs h.marks] at hv'
              exact hPm v (by simpa using hv')
            have hinv : AInv P true out (fun v => { τ₁.heap v with ckpt := none }) N τ₁ := by
              refine ⟨by rw [c1.blocks]; exact ssa, by rw [c1.blocks]; exact hread, hmarks, by rw [c1.blocks]; exact hst, c1.clean, fun v => rfl,
                fun v _ => ?_⟩
              have : τ₁.blocksFrom N = [] := by
                unfold blocksFrom
                rw [← c1.length, List.drop_length]
                rfl
              rw [this]
              rfl
            have hfin : AInv P true out (fun v => { τ₁.heap v with ckpt := none }) 0 τ₂ := by
              unfold reverseSweep at h₂
              rcases cr with ⟨r1, r2, r3⟩ | ⟨r1, r2⟩
              · rw [if_neg (by simp [r1])] at h₂
                exact firstReverse_ainv hg r3 r2 hinv h₂
              · rw [if_pos r1] at h₂
                exact processes_ainv hg _ r2 hinv h₂
            refine List.map_congr_left fun c hc => ?_
            have hcc : (τ₂.heap c).isControl = true := by
              rw [hs.1.control]
              obtain ⟨x, e⟩ := hτ₁ c
              rw [e]
              dsimp only
              obtain ⟨x, m, e⟩ := seedAdjoint_frame J cs a bs τ.heap c
              rw [e]
              dsimp only
              rw [if_pos hc]
            have hadj := hfin.adj c (Or.inl hcc)
            rw [blocksFrom_zero, hs.1.blocks, c1.blocks] at hadj
            refine getDerivative_congr ?_
            have hseed : ∀ v, OnTape bs v ∨ v = J →
                (seedAdjoint J cs a bs τ.heap v).adj = (seedAdjoint J cs a bs h₀ v).adj := by
              intro v hv
              have e : ∀ g : Heap V T A, (seedAdjoint J cs a bs g v).adj = if v = J then some a else none := by
                intro g
                unfold seedAdjoint
                dsimp only
                simp only [markControls_adj, markAll_adj]
                by_cases hJ : v = J
                · subst hJ
                  rw [Function.update_self, if_pos rfl]
                · rw [Function.update_of_ne hJ, if_neg hJ, resetVariables_apply, if_pos (hv.resolve_right hJ)]
                  rfl
              rw [e, e]
            have hmk : ∀ v, (seedAdjoint J cs a bs τ.heap v).marked = (seedAdjoint J cs a bs h₀ v).marked := by
              intro v
              have e : ∀ g : Heap V T A, (∀ v, (g v).marked = false) → (seedAdjoint J cs a bs g v).marked =
                  if v ∈ findRelevantNodes bs cs then true else false := by
                intro g hg
                have e2 : (resetVariables bs .adjoint g v).marked = false := by
                  rw [resetVariables_apply]
                  split <;> exact hg v
                unfold seedAdjoint
                dsimp only
                rw [markControls_apply, markAll_apply]
                by_cases hJ : v = J
                · subst hJ
                  rw [Function.update_self]
                  by_cases h1 : v ∈ cs <;> by_cases h2 : v ∈ findRelevantNodes bs cs <;> simp [h1, h2, e2]
                · rw [Function.update_of_ne hJ]
                  by_cases h1 : v ∈ cs <;> by_cases h2 : v ∈ findRelevantNodes bs cs <;> simp [h1, h2, e2]
              rw [e _ h.marks, e _ hm₀]
            have hcongr := evaluateAdj_congr_reads (P := P) (bs := bs) (m := true)
              (h := fun v => { τ₁.heap v with ckpt := none }) (h' := seedAdjoint J cs a bs h₀)
              (S := fun v => OnTape bs v ∨ v = J) hread hmarks
              (fun b hb => ⟨fun d hd => Or.inl ⟨b, hb, Or.inl hd⟩, fun o ho => Or.inl ⟨b, hb, Or.inr ho⟩⟩)
              (fun d hd => by
                rw [hg d hd, ← hs₀ d hd]
                obtain ⟨x, m, e⟩ := seedAdjoint_frame J cs a bs h₀ d
                exact (saved_congr (by rw [e]) (by rw [e])).symm)
              (fun v hv => by
                obtain ⟨c, e⟩ := hτ₁ v
                dsimp only
                rw [e]
                exact hmk v)
              (fun v hv => by
                obtain ⟨c, e⟩ := hτ₁ v
                dsimp only
                rw [e]
                exact hseed v hv)
              c (hcs c hc)
            rw [← hcongr, ← hadj]
            obtain ⟨m, e⟩ := unmark_frame cs bs τ₂.heap c
            show (unmark cs bs τ₂.heap c).adj = _
            rw [e]

end CTape
end Pyadjoint
