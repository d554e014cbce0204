import Verif.Proofs.CkptStoredSweep

/-!
# C26: derivatives at new control values, for schedules that store what every adjoint needs

Where a schedule keeps the data that the adjoint of every time step needs and loads them before it reverses the step (as
`SingleDiskStorageSchedule` does), an evaluation at any control values followed by a derivative gives the derivative of the recorded
program at those values, after any history, provided every control is used in every time step (`stored_gradient_partial`).
`unused_control_gradient_stale` shows that the last condition cannot be dropped; schedules that recompute fail in general
(`multistage_gradient_stale`).  Nor may the tape have been differentiated with respect to other controls before: the first derivative
decides what later evaluations store (`other_controls_gradient_stale`).
-/

namespace Pyadjoint
namespace CTape

variable {V T A : Type*}

theorem rfEval_isRun {bs : Blocks V T A} (wf : WF bs) {cs : List BV} {xs : List V} {h : Heap V T A}
    (hun : ∀ v, (h v).ckpt = none ∧ (h v).isControl = false) (hcs : cs.Nodup) (hinputs : ∀ c ∈ cs, ∀ b ∈ bs, c ∉ b.outs)
    (htotal : ∀ b ∈ bs, ∀ ys (i : Nat), ys.length = b.deps.length → i < b.outs.length → (b.recomputeC ys i).isSome) (hlen : xs.length = cs.length) :
    IsRun bs cs xs (fun v => (h v).output) (saved (rfEval bs cs xs h)) := by
  have hfl : ∀ v, (h v).isControl = false := fun v => (hun v).2
  refine ⟨?_, ?_, ?_⟩
  · intro i c x h1 h2
    obtain ⟨hi, rfl⟩ := List.getElem?_eq_some_iff.1 h1
    obtain ⟨hi', rfl⟩ := List.getElem?_eq_some_iff.1 h2
    unfold saved
    rw [rfEval_control _ _ _ _ hcs hlen (fun c _ => hfl c) i hi]
  · intro v hv ho
    unfold saved
    rw [rfEval_leaf _ _ _ _ _ hv ho, (hun v).1]
  · intro b hb i o ho
    obtain ⟨hi, rfl⟩ := List.getElem?_eq_some_iff.1 ho
    have e := rfEval_block wf cs xs h hfl b hb (fun o ho hoc => hinputs o hoc b hb ho) i hi
    obtain ⟨y, hy⟩ := Option.isSome_iff_exists.1 (htotal b hb (b.deps.map (saved (rfEval bs cs xs h))) i (by simp) hi)
    rw [hy] at e ⊢
    conv_rhs => unfold saved
    rw [e]
    rfl

/-- The adjoint sweep over the whole tape depends on the values and on the seed only. -/
theorem seeded_reference [Add A] {bs : Blocks V T A} {J : BV} {cs : List BV} {a : A} {h h₀ g : Heap V T A}
    (hm : ∀ v, (h v).marked = false) (hm₀ : ∀ v, (h₀ v).marked = false) (hg : ∀ v, ∃ c, g v = { seedAdjoint J cs a bs h v with ckpt := c })
    (hs : ∀ v, saved g v = saved h₀ v) {c : BV} (hc : OnTape bs c ∨ c = J) :
    (evaluateAdj bs true g c).adj = (evaluateAdj bs true (seedAdjoint J cs a bs h₀) c).adj := by
  classical
  have hseed : ∀ v, OnTape bs v ∨ v = J → (seedAdjoint J cs a bs h v).adj = (seedAdjoint J cs a bs h₀ v).adj := by
    intro v hv
    have e : ∀ g : Heap V T A, (seedAdjoint J cs a bs g v).adj = if v = J then some a else none := by
      intro g
      unfold seedAdjoint
      dsimp only
      simp only [markControls_adj, markAll_adj]
      by_cases hJ : v = J
      · subst hJ
        rw [Function.update_self, if_pos rfl]
      · rw [Function.update_of_ne hJ, if_neg hJ, resetVariables_apply, if_pos (hv.resolve_right hJ)]
        rfl
    rw [e, e]
  refine evaluateAdj_congr_on (bs := bs) (m := true) (S := fun v => OnTape bs v ∨ v = J)
    (fun b hb => ⟨fun d hd => Or.inl ⟨b, hb, Or.inl hd⟩, fun o ho => Or.inl ⟨b, hb, Or.inr ho⟩⟩)
    (fun b hb d hd => ?_) (fun v hv => ?_) (fun v hv => ?_) c hc
  · rw [hs d]
    obtain ⟨x, m, e⟩ := seedAdjoint_frame J cs a bs h₀ d
    exact (saved_congr (by rw [e]) (by rw [e])).symm
  · obtain ⟨c, e⟩ := hg v
    rw [e]
    exact (seedAdjoint_marked J cs a bs hm v).trans (seedAdjoint_marked J cs a bs hm₀ v).symm
  · obtain ⟨c, e⟩ := hg v
    rw [e]
    exact hseed v hv

theorem computeGradient_seeded [Add A] [Zero A] (bs : Blocks V T A) (J : BV) (cs : List BV) (a : A) (h₀ : Heap V T A) :
    (computeGradient bs J cs a h₀).1 = cs.map (getDerivative (evaluateAdj bs true (seedAdjoint J cs a bs h₀))) := by
  unfold computeGradient computeGradientState markedAdjoint
  dsimp only
  refine List.map_congr_left fun c _ => ?_
  unfold getDerivative
  simp only [markAll_adj, markControls_adj]
  rfl

theorem Recorded.stocked {sch : Schedule} {h : Heap V T A} {es : List (Event V T A)} {τ : CTape V T A} (hr : Recorded sch h es τ)
    (hall : sch.StoresAll) (hend : τ.mgr.mode = .record ∨ ∃ es', es = es' ++ [.endTimestep]) {cs : List BV}
    (hinputs : ∀ c ∈ cs, ∀ b ∈ Event.blocks es, c ∉ b.outs) : Stocked (Event.blocks es) cs (fun v => (h v).output) sch τ := by
  have hal := hr.alive (Indep (Event.blocks es) cs)
  obtain ⟨gc, pk, eager, τ₁, hgc, h1, h2⟩ := hr.recorded
  have hf : Fresh (Indep (Event.blocks es) cs) (fun v => (h v).output) h :=
    ⟨fun _ => rfl, fun v _ c hc => (by rw [(hr.unused v).1] at hc; cases hc),
      fun v => (hr.unused v).2.2.2.1, fun v => (hr.unused v).2.2.2.2⟩
  have ht := (taped_enable hf hgc h1).recording es (show WF ([] ++ Event.blocks es) from hr.ssa) h2
  rw [List.nil_append] at ht
  exact ⟨Or.inl ⟨ht, fun c hc => hr.recd hall.acts hend (hinputs c hc)⟩, hal.flags,
    fun v => (hr.same v).2.2.1.trans (hr.unused v).2.2.1⟩

/-- An evaluation at any values, then a derivative. -/
theorem Stocked.gradient [Add A] [Zero A] [Mul V] {bs : Blocks V T A} (wf : WF bs) {cs : List BV} {out : BV → V} {sch : Schedule}
    (hwf : sch.WellFormed) (hall : sch.StoresAll) (hst : Stable (Indep bs cs) bs out) (hinputs : ∀ c ∈ cs, ∀ b ∈ bs, c ∉ b.outs)
    {τ : CTape V T A} (h : Stocked bs cs out sch τ) (hmode : τ.mgr.mode ≠ .record) (hcs : cs.Nodup)
    (hused : ∀ c ∈ cs, ∀ s ∈ τ.steps, ∃ b ∈ s.blocks, c ∈ b.deps) (truthy : V → Bool) (J J' : BV) (scale : V) (a : A)
    {xs : List V} (hlen : xs.length = cs.length) {h₀ : Heap V T A} (hm₀ : ∀ v, (h₀ v).marked = false)
    (hrun : IsRun bs cs xs out (saved h₀)) (hsame : ∀ v, Indep bs cs v → saved h₀ v = out v) :
    ∃ y τ₁ τ₂, rfCall truthy J cs scale xs τ = .ok (y, τ₁) ∧ (truthy (out J) = true → y = saved h₀ J * scale) ∧
      rfDerivative J' cs a τ₁ = .ok ((computeGradient bs J' cs a h₀).1, τ₂) := by
  have hP : ∀ v, Indep bs cs v → v ∉ cs := fun v hv hc => hv (.base hc)
  obtain ⟨⟨N, hc, hsv⟩, -, -⟩ := finishTaping_saves hinputs hwf hall h.state
    (show finishTaping τ = .ok τ by unfold finishTaping; rw [if_neg hmode])
  obtain ⟨τ₁, h1, h2, h3, h4, h5, h6, h7, h8, h9⟩ := hc.start h.flags hmode hst truthy hcs hP hinputs J scale hlen hrun.control hsame hrun.block
    (fun s hs v hv => indep_of_leaf fun b hb => hc.live.init s hs v hv b (by rw [hc.blocks]; exact hb)) indep_of_leaf
  have hb1 : τ₁.blocks = bs := by
    rw [← hc.blocks]
    unfold CTape.blocks
    rw [h4]
  have hS : SInv (Indep bs cs) cs (saved h₀) 0 τ₁ := by
    refine ⟨?_, ?_, by rw [hb1]; exact hinputs, h6, fun j s hj => absurd hj (Nat.not_lt_zero j)⟩
    · unfold AdjKept
      rw [h4]
      exact hsv.adj
    · rw [h5]
      exact fun c hc => hsv.glob c hc (hused c hc)
  obtain ⟨τ₂, g1, g2, g3, g4, g5⟩ := sweep_stores (m := false) h3 (by rw [h5]; exact hsv.fwd) (Nat.zero_le _) h1 h2 hS
  have hcall := h9 τ₂ g1
  have hstk := rfCall_stocked hwf hall hst hinputs h hcall
  have hsh : Shape τ₁ τ₂ := (foldlM_ind (R := StaysClean (Indep bs cs) out) (StaysClean.refl _ out)
        (fun _ _ _ => StaysClean.trans) _ (fun _ _ _ _ h => perform_clean _ out h) g1).1
  have hb2 : τ₂.blocks = bs := by rw [hsh.blocks]; exact hb1
  have hmode2 : (τ₂.onHeap (markControls cs false)).mgr.mode ≠ .record := by
    show τ₂.mgr.mode ≠ .record
    rw [g5]; exact Mode.noConfusion
  obtain ⟨⟨N', c1, c2⟩, -, -⟩ := finishTaping_saves hinputs hwf hall hstk.state
    (show finishTaping (τ₂.onHeap (markControls cs false)) = .ok _ by unfold finishTaping; rw [if_neg hmode2])
  have hN : N' = N := by
    rw [← c1.length, ← g2.length]
    rfl
  subst hN
  -- the derivative
  have hok := heapOK_seed (Indep bs cs) J' cs a bs (markControls cs false τ₂.heap)
  have hm2 : ∀ v, (markControls cs false τ₂.heap v).marked = false := hstk.marks
  generalize hτ₃ : ((τ₂.onHeap (markControls cs false)).onHeap (seedAdjoint J' cs a bs)) = τ₃
  have hheap : τ₃.heap = seedAdjoint J' cs a bs (markControls cs false τ₂.heap) := by rw [← hτ₃]; rfl
  have hsteps : τ₃.steps = τ₂.steps := by rw [← hτ₃]; rfl
  have hmgr : τ₃.mgr = τ₂.mgr := by rw [← hτ₃]; rfl
  have hb3 : τ₃.blocks = bs := by
    rw [← hb2]
    unfold CTape.blocks
    rw [hsteps]
  have hg : ∀ v, saved (fun v => { τ₃.heap v with ckpt := some (saved h₀ v) } : Heap V T A) v = saved h₀ v := fun v => rfl
  have hsaved : ∀ v, saved τ₃.heap v = saved τ₂.heap v := by
    intro v
    rw [hheap]
    obtain ⟨x, m, e⟩ := seedAdjoint_frame J' cs a bs (markControls cs false τ₂.heap) v
    refine saved_congr ?_ ?_
    · rw [e, markControls_apply]; split <;> rfl
    · rw [e, markControls_apply]; split <;> rfl
  have hinv : SRInv (Indep bs cs) cs out (saved h₀) (fun v => { τ₃.heap v with ckpt := some (saved h₀ v) }) N' N' τ₃ := by
    refine ⟨by rw [hb3]; exact wf, by rw [hb3]; exact hst, fun v => rfl, fun v _ => ?_, by rw [hb3]; exact hinputs, fun v => ?_,
      fun c hc => ?_, by rw [← hτ₃]; exact (c1.onHeap hok).clean, ?_, ?_⟩
    · have : τ₃.blocksFrom N' = [] := by
        unfold blocksFrom
        rw [hsteps, ← g2.length, List.drop_length]
        rfl
      rw [this]
      rfl
    · rw [hheap]
      obtain ⟨x, m, e⟩ := seedAdjoint_frame J' cs a bs (markControls cs false τ₂.heap) v
      rw [e]
      dsimp only
      by_cases hv : v ∈ cs
      · rw [if_pos hv]; simp [hv]
      · rw [if_neg hv]
        simp only [hv, decide_false]
        exact hstk.flags v
    · rw [hsaved]
      exact g4.ctl c hc
    · rw [hsteps]
      exact g4.stored
    · rw [hsteps, g2.length]
  have hrev : RevStored N' τ₃ := by
    unfold RevStored
    rw [hmgr]
    exact c2.rev
  obtain ⟨τ₄, k1, k2⟩ := hinv.sweep hg hsame hrev
  have hs4 := (reverseSweep_clean (Indep bs cs) out k1).1
  refine ⟨_, _, onHeap (unmark cs bs) { τ₄ with mgr := { τ₄.mgr with mode := .evaluateAdjoint } }, hcall, fun ht => ?_, ?_⟩
  · have hJ : saved τ₂.heap J = saved h₀ J := by
      apply g3.kept J (by rw [if_pos ht]; simp)
      intro j s₁ hj hs₁
      have := lt_length hs₁
      rw [g2.length] at this
      omega
    rw [hJ]
  · have hadj : evaluateAdjTape true τ₃ = .ok { τ₄ with mgr := { τ₄.mgr with mode := .evaluateAdjoint } } := by
      have hm3 : τ₃.mgr.mode = .evaluated := by rw [hmgr]; exact g5
      unfold evaluateAdjTape
      rw [show finishTaping τ₃ = .ok τ₃ by unfold finishTaping; rw [if_neg (by rw [hm3]; exact Mode.noConfusion)]]
      dsimp only
      rw [if_neg (by simp [canReverse, hm3]), k1]
    unfold rfDerivative
    rw [show (onHeap (markControls cs false) τ₂).blocks = bs from hb2, hτ₃, hadj]
    simp only [Except.ok.injEq, Prod.mk.injEq, and_true]
    rw [computeGradient_seeded]
    refine List.map_congr_left fun c hc => getDerivative_congr ?_
    have hon : OnTape bs c ∨ c = J' := by
      left
      have hpos : 0 < τ.steps.length := by rw [‹Core _ _ N' bs τ›.length]; exact ‹Core _ _ N' bs τ›.pos
      obtain ⟨b, hb, hcb⟩ := hused c hc τ.steps[0] (List.getElem_mem hpos)
      refine ⟨b, ?_, Or.inl hcb⟩
      rw [← ‹Core _ _ N' bs τ›.blocks]
      exact mem_blocks_of_step (List.getElem?_eq_getElem hpos) hb
    have hcc : (τ₄.heap c).isControl = true := by rw [k2.control]; simp [hc]
    have hfin := k2.adj c (Or.inl hcc)
    rw [blocksFrom_zero, hs4.blocks, hb3] at hfin
    obtain ⟨m, e⟩ := unmark_frame cs bs τ₄.heap c
    show (unmark cs bs τ₄.heap c).adj = _
    rw [e]
    refine hfin.trans (seeded_reference hm2 hm₀ (fun v => ⟨some (saved h₀ v), by rw [← hheap]⟩) hg hon)

theorem History.stocked [Add A] [Zero A] [Mul V] {bs : Blocks V T A} (wf : WF bs) {cs : List BV} {out : BV → V} {sch : Schedule}
    (hwf : sch.WellFormed) (hall : sch.StoresAll) (hst : Stable (Indep bs cs) bs out) (hinputs : ∀ c ∈ cs, ∀ b ∈ bs, c ∉ b.outs)
    {truthy : V → Bool} {τ τ' : CTape V T A} (hh : History truthy cs τ τ') (h : Stocked bs cs out sch τ) : Stocked bs cs out sch τ' := by
  induction hh with
  | start => exact h
  | call _ hr ih => exact rfCall_stocked hwf hall hst hinputs ih hr
  | derivative _ hr ih => exact rfDerivative_stocked wf hwf hall hst hinputs ih hr

/-! ## Statement -/

/-- **C26, at new control values** (partial: for schedules that store what every adjoint needs, with controls used in every time step).
For every recorded program that ends with the end of a time step or is still being recorded, after any history of evaluations at
any values and derivatives, of any functionals of the same controls: an evaluation at any control values and the derivative after it succeed, and the derivative is the one that
the program recorded without checkpointing gives at these values. -/
theorem stored_gradient_partial [Add A] [Zero A] [Mul V] {sch : Schedule} {h : Heap V T A}
    {es : List (Event V T A)} {τ₀ τ : CTape V T A} (hr : Recorded sch h es τ₀) (hall : sch.StoresAll)
    (hend : τ₀.mgr.mode = .record ∨ ∃ es', es = es' ++ [.endTimestep])
    (hfaithful : ∀ b ∈ Event.blocks es, ∀ (i : Nat) (o : BV), b.outs[i]? = some o →
      ∀ y, b.recomputeC (b.deps.map fun d => (h d).output) i = some y → y = (h o).output)
    (htotal : ∀ b ∈ Event.blocks es, ∀ ys (i : Nat), ys.length = b.deps.length → i < b.outs.length → (b.recomputeC ys i).isSome)
    {truthy : V → Bool} {cs : List BV} (hcs : cs.Nodup) (hinputs : ∀ c ∈ cs, ∀ b ∈ Event.blocks es, c ∉ b.outs)
    (hh : History truthy cs τ₀ τ) (hmode : τ.mgr.mode ≠ .record)
    (hused : ∀ c ∈ cs, ∀ s ∈ τ.steps, ∃ b ∈ s.blocks, c ∈ b.deps)
    (J J' : BV) (scale : V) (a : A) {xs : List V} (hlen : xs.length = cs.length) :
    ∃ y τ₁ τ₂, rfCall truthy J cs scale xs τ = .ok (y, τ₁) ∧
      rfDerivative J' cs a τ₁ = .ok ((computeGradient (Event.blocks es) J' cs a (rfEval (Event.blocks es) cs xs h)).1, τ₂) := by
  have hst : Stable (Indep (Event.blocks es) cs) (Event.blocks es) (fun v => (h v).output) := stable_indep (fun _ h => h) hfaithful
  have hs := hh.stocked hr.ssa hr.wellFormed hall hst hinputs (hr.stocked hall hend hinputs)
  have hrun := rfEval_isRun hr.ssa (fun v => ⟨(hr.unused v).1, (hr.unused v).2.1⟩) hcs hinputs htotal hlen
  obtain ⟨y, τ₁, τ₂, h1, -, h2⟩ := hs.gradient hr.ssa hr.wellFormed hall hst hinputs hmode hcs hused truthy J J' scale a hlen
    (h₀ := rfEval (Event.blocks es) cs xs h)
    (fun v => by
      obtain ⟨c, e⟩ := rfEval_frame (Event.blocks es) cs xs h v fun c _ => (hr.unused c).2.1
      rw [e]; exact (hr.unused v).2.2.1) hrun (IsRun.indep hr.ssa hfaithful hrun)
  exact ⟨y, τ₁, τ₂, h1, h2⟩

/-! ## Non-vacuity -/

theorem singleDisk2_storesAll : singleDisk2.StoresAll := by
  refine ⟨?_, ?_, ?_⟩
  · intro a ha
    simp only [singleDisk2, List.mem_cons, List.not_mem_nil, or_false] at ha
    rcases ha with rfl | rfl | rfl | rfl | rfl | rfl | rfl <;> simp [Action.stores]
  · intro N a ha
    simp [singleDisk2] at ha
  · intro N _ hN
    have : N = 2 := by simpa [singleDisk2] using hN
    subst this
    exact .copy 1 .disk true _ (.copy 0 .disk true _ .done)

/-- The tape of `x⁷` after an evaluation at `5` and a derivative. -/
def seventhAfter : CTape Int Int Int := afterD (rfDerivative 4 [0] 1 (afterC (rfCall (fun x => x != 0) 4 [0] 1 [5] seventhTape)))

/-- `stored_gradient_partial` applies to it: the derivative of `x⁷` at `3` is `7 · 3⁶`. -/
example : ∃ y τ₁ τ₂, rfCall (fun x => x != 0) 4 [0] 1 [3] seventhAfter = .ok (y, τ₁) ∧ rfDerivative 4 [0] 1 τ₁ = .ok ([5103], τ₂) := by
  obtain ⟨y, h₁⟩ := afterC_ok (r := rfCall (fun x => x != 0) 4 [0] 1 [5] seventhTape) (by decide +kernel)
  obtain ⟨ds, h₂⟩ := afterD_ok (r := rfDerivative 4 [0] 1 (afterC (rfCall (fun x => x != 0) 4 [0] 1 [5] seventhTape))) (by decide +kernel)
  have hh : History (fun x : Int => x != 0) [0] seventhTape seventhAfter := ((History.start _).call h₁).derivative h₂
  have := stored_gradient_partial seventh_recorded singleDisk2_storesAll (Or.inr ⟨exSeventh.dropLast, rfl⟩) seventh_faithful
    (fun b hb ys i _ hi => by
      simp only [exSeventh, Event.blocks, List.mem_cons, List.not_mem_nil, or_false] at hb
      rcases hb with rfl | rfl | rfl | rfl | rfl <;>
      · have : i = 0 := by simpa [mulBlk] using hi
        subst this
        rfl)
    (by simp)
    (fun c hc b hb => by
      rw [List.mem_singleton.1 hc]
      simp only [exSeventh, Event.blocks, List.mem_cons, List.not_mem_nil, or_false] at hb
      rcases hb with rfl | rfl | rfl | rfl | rfl <;> decide)
    hh (by decide +kernel)
    (fun c hc s hs => by
      rw [List.mem_singleton.1 hc]
      have hall : seventhAfter.steps.all (fun s => s.blocks.any fun b => b.deps.any (· == 0)) = true := by decide +kernel
      obtain ⟨b, hb, hb'⟩ := List.any_eq_true.1 (List.all_eq_true.1 hall s hs)
      obtain ⟨d, hd, hd'⟩ := List.any_eq_true.1 hb'
      exact ⟨b, hb, by rw [← eq_of_beq hd']; exact hd⟩)
    4 4 1 1 (xs := [3]) rfl
  rw [show (computeGradient (Event.blocks exSeventh) 4 [0] 1 (rfEval (Event.blocks exSeventh) [0] [3] (freshHeap [2, 4, 8, 64, 128, 256]))).1 = [5103] by
    decide +kernel] at this
  exact this

/-- `J(x, y) = x³ y⁵`, recorded in two time steps that both use `x` and `y`. -/
def exTwoControls : List (Event Int Int Int) :=
  [.block (mulBlk 1 1 2), .block (mulBlk 0 0 3), .endTimestep, .block (mulBlk 2 2 4), .block (mulBlk 4 3 5), .block (mulBlk 5 1 6),
    .block (mulBlk 6 0 7), .endTimestep]

/-- The tape recorded at `x = 2`, `y = 3` with a schedule that keeps every step on disk. -/
def twoControls : CTape Int Int Int := tapeOf emptyTape (record singleDisk2 (freshHeap [2, 3, 9, 4, 81, 324, 972, 1944]) exTwoControls)

theorem exTwoControls_wf : WF (Event.blocks exTwoControls) := by
  refine ⟨?_, ?_, ?_⟩
  · intro b hb
    simp only [exTwoControls, Event.blocks, List.mem_cons, List.not_mem_nil, or_false] at hb
    rcases hb with rfl | rfl | rfl | rfl | rfl | rfl <;> decide
  · intro b hb
    simp only [exTwoControls, Event.blocks, List.mem_cons, List.not_mem_nil, or_false] at hb
    rcases hb with rfl | rfl | rfl | rfl | rfl | rfl <;> decide
  · simp [exTwoControls, Event.blocks, mulBlk]

/-- **C26 is false of the code** for reduced functionals with different controls on one tape, even where every step is stored and every
control is used in every step.  The first derivative (here with respect to `x` alone) fixes which variables are stored for the adjoint
of a step; after an evaluation at `x = 2`, `y = 5` of the functional with both controls, its derivative is computed from recorded values
of the variables that depend on `y` only.  It is (15740, 12200) instead of (37500, 25000), and there is no error.  Without the first
derivative it is right. -/
theorem other_controls_gradient_stale :
    Recorded singleDisk2 (freshHeap [2, 3, 9, 4, 81, 324, 972, 1944]) exTwoControls twoControls ∧ singleDisk2.StoresAll ∧
    derivatives (rfDerivative 7 [0, 1] 1 (afterC (rfCall (fun x => x != 0) 7 [0, 1] 1 [2, 5] twoControls))) = some [37500, 25000] ∧
    derivatives (rfDerivative 7 [0, 1] 1 (afterC (rfCall (fun x => x != 0) 7 [0, 1] 1 [2, 5]
      (afterD (rfDerivative 7 [0] 1 twoControls))))) = some [15740, 12200] ∧
    (computeGradient (Event.blocks exTwoControls) 7 [0, 1] 1 (rfEval (Event.blocks exTwoControls) [0, 1] [2, 5]
      (freshHeap [2, 3, 9, 4, 81, 324, 972, 1944]))).1 = [37500, 25000] :=
  ⟨recorded_of singleDisk2_wellFormed exTwoControls_wf (by decide +kernel), singleDisk2_storesAll, by decide +kernel, by decide +kernel,
    by decide +kernel⟩

end CTape
end Pyadjoint
