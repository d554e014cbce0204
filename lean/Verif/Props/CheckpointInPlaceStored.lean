import Verif.Props.CheckpointInPlace
import Verif.Props.CheckpointStored

/-!
# C90: derivatives with mutable objects, for schedules that store what every adjoint needs
-/

namespace Pyadjoint
namespace CTape

variable {V T A : Type*}

theorem Stable.congr {P : BV → Prop} {bs : Blocks V T A} {out out' : BV → V} (h : Stable P bs out)
    (he : ∀ v, P v → out' v = out v) : Stable P bs out' := by
  intro b hb i o ho hP
  obtain ⟨h1, h2⟩ := h b hb i o ho hP
  refine ⟨h1, fun y hy => ?_⟩
  rw [he o hP]
  refine h2 y ?_
  rw [← hy]
  congr 1
  exact List.map_congr_left fun d hd => (he d (h1 d hd)).symm

theorem Rec.change {c : BV} {τ : CTape V T A} (h : Rec c τ) (vs : List BV) (x : V) : Rec c (τ.change vs x) :=
  ⟨h.outs, h.fresh, h.ended, h.current⟩

theorem Saves.change {P : BV → Prop} {cs : List BV} {N : Nat} {τ : CTape V T A} (h : Saves P cs N τ) (vs : List BV) (x : V) :
    Saves P cs N (τ.change vs x) := ⟨h.adj, h.glob, h.fwd, h.rev⟩

theorem Stocked.change {bs : Blocks V T A} {cs : List BV} {out : BV → V} {sch : Schedule} {τ : CTape V T A}
    (h : Stocked bs cs out sch τ) {vs : List BV} (hvs : ∀ v ∈ vs, ¬ Indep bs cs v) (x : V) :
    Stocked bs cs (changed vs x out) sch (τ.change vs x) := by
  refine ⟨?_, fun v => by rw [change_heap]; exact h.flags v, fun v => by rw [change_heap]; exact h.marks v⟩
  rcases h.state with ⟨ht, hr⟩ | ⟨hm, N, hc, hs⟩
  · exact Or.inl ⟨ht.change hvs x, fun c hc => (hr c hc).change vs x⟩
  · exact Or.inr ⟨hm, N, hc.change hvs x, hs.change vs x⟩

theorem event_mode {e : Event V T A} {τ τ' : CTape V T A} (h : τ.event e = .ok τ') (hm : τ'.mgr.mode = .record) :
    τ.mgr.mode = .record := by
  cases e with
  | block b =>
    injection h with h
    rw [← h, (recordBlock_frame b τ).1] at hm
    exact hm
  | endTimestep => exact (mgrEndTimestep_ok h).1

theorem mrecording_mode (es : List (MEvent V T A)) {τ τ' : CTape V T A} (h : CTape.mrecording es τ = .ok τ')
    (hm : τ'.mgr.mode = .record) : τ.mgr.mode = .record := by
  induction es generalizing τ with
  | nil => injection h with h; rw [h]; exact hm
  | cons e es ih =>
    unfold CTape.mrecording at h
    split at h
    · cases h
    · rename_i τ₁ h₁
      have := ih h
      cases e with
      | event e => exact event_mode h₁ this
      | change vs x => injection h₁ with h₁; rw [← h₁] at this; exact this

theorem mrecording_marks (es : List (MEvent V T A)) {τ τ' : CTape V T A} (h : CTape.mrecording es τ = .ok τ') (v : BV) :
    (τ'.heap v).marked = (τ.heap v).marked := by
  induction es generalizing τ with
  | nil => injection h with h; rw [h]
  | cons e es ih =>
    unfold CTape.mrecording at h
    split at h
    · cases h
    · rename_i τ₁ h₁
      refine (ih h).trans ?_
      cases e with
      | event e =>
        have hone : CTape.recording [e] τ = .ok τ₁ := by
          rw [recording_cons]
          show (match τ.event e with | .error err => _ | .ok τ => _) = _
          rw [show τ.event e = .ok τ₁ from h₁]; rfl
        exact ((recording_same [e] hone) v).2.2.1
      | change vs x => injection h₁ with h₁; rw [← h₁, change_heap]

theorem mrecording_ended (es : List (MEvent V T A)) {τ τ' : CTape V T A}
    (h : CTape.mrecording (es ++ [.event .endTimestep]) τ = .ok τ') :
    ∃ τ₁, CTape.mrecording es τ = .ok τ₁ ∧ τ₁.endTimestep = .ok τ' := by
  induction es generalizing τ with
  | nil =>
    refine ⟨τ, rfl, ?_⟩
    simp only [List.nil_append, CTape.mrecording] at h
    split at h
    · cases h
    · rename_i τ₁ h₁
      injection h with h
      rw [← h]; exact h₁
  | cons e es ih =>
    rw [List.cons_append] at h
    unfold CTape.mrecording at h
    split at h
    · cases h
    · rename_i τ₁ h₁
      obtain ⟨τ₂, h2, h3⟩ := ih h
      refine ⟨τ₂, ?_, h3⟩
      unfold CTape.mrecording
      rw [h₁]
      exact h2

theorem MEvent.blocks_ended (es : List (MEvent V T A)) : MEvent.blocks (es ++ [.event .endTimestep]) = MEvent.blocks es := by
  induction es with
  | nil => rfl
  | cons e es ih =>
    rcases e with (b | _) | ⟨vs, x⟩ <;> simp [MEvent.blocks, ih]

theorem Rec.mrecording {P : BV → Prop} {sch : Schedule} (hst : ∀ a ∈ sch.acts, a.stores) {c : BV} (es : List (MEvent V T A)) :
    ∀ {out : BV → V} {bs : Blocks V T A} {τ τ' : CTape V T A}, Rec c τ → Taped P out sch bs τ →
    WF (bs ++ MEvent.blocks es) → (∀ b ∈ bs ++ MEvent.blocks es, c ∉ b.outs) → (∀ vs x, .change vs x ∈ es → ∀ v ∈ vs, ¬ P v) →
    CTape.mrecording es τ = .ok τ' → τ'.mgr.mode = .record → Rec c τ' := by
  induction es with
  | nil =>
    intro out bs τ τ' h _ _ _ _ hr _
    injection hr with hr
    rw [← hr]; exact h
  | cons e es ih =>
    intro out bs τ τ' h ht wf hc hch hr hm
    have hch' : ∀ vs x, .change vs x ∈ es → ∀ v ∈ vs, ¬ P v :=
      fun vs x hm => hch vs x (List.mem_cons_of_mem _ hm)
    cases e with
    | change vs x =>
      exact ih (h.change vs x) (ht.change (hch vs x (List.mem_cons_self ..)) x) wf hc hch' hr hm
    | event e =>
      simp only [CTape.mrecording, mevent] at hr
      cases he : τ.event e with
      | error err => rw [he] at hr; cases hr
      | ok τ₁ =>
        rw [he] at hr
        have hm₁ := mrecording_mode es hr hm
        have hone : CTape.recording [e] τ = .ok τ₁ := by
          rw [recording_cons, he]; rfl
        cases e with
        | block b =>
          have e1 : bs ++ MEvent.blocks (.event (.block b) :: es) = (bs ++ [b]) ++ MEvent.blocks es := by
            simp [MEvent.blocks]
          rw [e1] at wf hc
          have hb : Event.blocks [Event.block b] = [b] := by simp [Event.blocks]
          have wf1 : WF (bs ++ Event.blocks [Event.block b]) := by rw [hb]; exact WF.prefix' wf
          exact ih (h.recording hst [.block b] ht wf1 (fun b' hb' => hc b' (by
              rw [hb] at hb'; exact List.mem_append_left _ hb')) hone hm₁).1
            (by have := ht.recording [.block b] wf1 hone; rwa [hb] at this) wf hc hch' hr hm
        | endTimestep =>
          have hb : Event.blocks [(Event.endTimestep : Event V T A)] = [] := by simp [Event.blocks]
          have wf0 : WF (bs ++ Event.blocks [(Event.endTimestep : Event V T A)]) := by
            rw [hb, List.append_nil]; exact WF.prefix' wf
          exact ih (h.recording hst [.endTimestep] ht wf0 (fun b' hb' => hc b' (by
              rw [hb, List.append_nil] at hb'; exact List.mem_append_left _ hb')) hone hm₁).1
            (by have := ht.recording [.endTimestep] wf0 hone; rwa [hb, List.append_nil] at this) wf hc hch' hr hm

theorem MRecorded.stocked {sch : Schedule} {h : Heap V T A} {es : List (MEvent V T A)} {τ : CTape V T A} (hr : MRecorded sch h es τ)
    (hall : sch.StoresAll) (hend : τ.mgr.mode = .record ∨ ∃ es', es = es' ++ [.event .endTimestep]) {cs : List BV}
    (hinputs : ∀ c ∈ cs, ∀ b ∈ MEvent.blocks es, c ∉ b.outs)
    (hch : ∀ vs x, .change vs x ∈ es → ∀ v ∈ vs, ¬ Indep (MEvent.blocks es) cs v) :
    ∃ out, Stocked (MEvent.blocks es) cs out sch τ ∧ ∀ v, Indep (MEvent.blocks es) cs v → out v = (h v).output := by
  obtain ⟨gc, pk, eager, τ₀, hgc, h1, h2⟩ := hr.recorded
  have hf : Fresh (Indep (MEvent.blocks es) cs) (fun v => (h v).output) h :=
    ⟨fun _ => rfl, fun v _ c hc => (by rw [(hr.unused v).1] at hc; cases hc),
      fun v => (hr.unused v).2.2.2.1, fun v => (hr.unused v).2.2.2.2⟩
  have t0 := taped_enable hf hgc h1
  have hs0 : Same h τ₀.heap := by
    unfold enable at h1
    split at h1
    · cases h1
    · split at h1
      · cases h1
      · split at h1
        · cases h1
        · exact mgrEndTimestep_same h1
  obtain ⟨out, t1, t2, t3⟩ := t0.mrecording es hr.ssa hch (fun v => (hs0 v).2.2.2.trans (hr.unused v).2.1) h2
  refine ⟨out, ⟨Or.inl ⟨t1, fun c hc => ?_⟩, t3, fun v => (mrecording_marks es h2 v).trans ((hs0 v).2.2.1.trans (hr.unused v).2.2.1)⟩, t2⟩
  have r0 := Rec.enable h1 hall.acts c
  rcases hend with hm | ⟨es', rfl⟩
  · exact r0.mrecording hall.acts es t0 hr.ssa (hinputs c hc) hch h2 hm
  · have e1 := MEvent.blocks_ended es'
    have ssa := hr.ssa
    have hin := hinputs c hc
    rw [e1] at ssa hin
    obtain ⟨τ₁, h3, h4⟩ := mrecording_ended es' h2
    have hch' : ∀ vs x, .change vs x ∈ es' → ∀ v ∈ vs, ¬ Indep (MEvent.blocks (es' ++ [.event .endTimestep])) cs v :=
      fun vs x hm => hch vs x (List.mem_append_left _ hm)
    obtain ⟨out₁, u1, -, -⟩ := t0.mrecording es' ssa hch' (fun v => (hs0 v).2.2.2.trans (hr.unused v).2.1) h3
    have hl : τ₁.latest + 1 = τ₁.steps.length := by
      have := u1.inv.pos
      unfold latest
      omega
    have hmr := (mgrEndTimestep_ok h4).1
    have r1 := r0.mrecording hall.acts es' t0 ssa hin hch' h3 hmr
    unfold endTimestep at h4
    rw [hl] at h4
    exact (r1.mgrEndTimestep (u1.inv.inState fun b hb => hin b (by rw [u1.blocks] at hb; exact hb)) (u1.track.stores hall.acts)
      (fun hm e => by rw [u1.track.finished.2 e] at hm; cases hm) h4).1

theorem MHistory.stocked [Add A] [Zero A] [Mul V] {bs : Blocks V T A} (wf : WF bs) {cs : List BV} {sch : Schedule}
    (hwf : sch.WellFormed) (hall : sch.StoresAll) {out : BV → V} (hst : Stable (Indep bs cs) bs out) (hinputs : ∀ c ∈ cs, ∀ b ∈ bs, c ∉ b.outs)
    {truthy : V → Bool} {τ τ' : CTape V T A} (hh : MHistory truthy cs (fun v => Reach bs (· ∈ cs) v) τ τ')
    (h : Stocked bs cs out sch τ) :
    ∃ out', Stocked bs cs out' sch τ' ∧ ∀ v, Indep bs cs v → out' v = out v := by
  induction hh with
  | start => exact ⟨out, h, fun _ _ => rfl⟩
  | call _ hr ih =>
    obtain ⟨out', h1, h2⟩ := ih
    exact ⟨out', rfCall_stocked hwf hall (hst.congr h2) hinputs h1 hr, h2⟩
  | derivative _ hr ih =>
    obtain ⟨out', h1, h2⟩ := ih
    exact ⟨out', rfDerivative_stocked wf hwf hall (hst.congr h2) hinputs h1 hr, h2⟩
  | change vs x _ hvs ih =>
    obtain ⟨out', h1, h2⟩ := ih
    refine ⟨changed vs x out', h1.change (fun v hv hi => hi (hvs v hv)) x, fun v hv => ?_⟩
    rw [← h2 v hv]
    exact if_neg fun hm => hv (hvs v hm)

theorem indep_of_leaf' {bs : Blocks V T A} {cs : List BV} {v : BV} (hv : v ∉ cs) (ho : ∀ b ∈ bs, v ∉ b.outs) : Indep bs cs v := by
  intro hreach
  cases hreach with
  | base hc => exact hv hc
  | step hb hd _ hm => exact ho _ hb hm

theorem Stocked.output {bs : Blocks V T A} {cs : List BV} {out : BV → V} {sch : Schedule} {τ : CTape V T A}
    (h : Stocked bs cs out sch τ) (v : BV) : (τ.heap v).output = out v := by
  rcases h.state with ⟨ht, -⟩ | ⟨-, N, hc, -⟩
  · exact ht.clean.output v
  · exact hc.clean.output v

/-- **C90, derivatives** (partial: for schedules that store what every adjoint needs, with controls used in every time step, and with changes
of controls and of results that depend on the controls only).  Programs with mutable objects under checkpointing: after any history of
evaluations, derivatives and changes of such objects, an evaluation at any control values and the derivative after it succeed.  The value
is the functional's, and the derivative is the one that the same operations recorded without checkpointing give at these values.  `(h v).output` is
the value each block variable's object had when the variable was made. -/
theorem in_place_stored_gradient_partial [Add A] [Zero A] [Mul V] {sch : Schedule} {h : Heap V T A}
    {es : List (MEvent V T A)} {τ₀ τ : CTape V T A} (hr : MRecorded sch h es τ₀) (hall : sch.StoresAll)
    (hend : τ₀.mgr.mode = .record ∨ ∃ es', es = es' ++ [.event .endTimestep])
    (hfaithful : ∀ b ∈ MEvent.blocks es, ∀ (i : Nat) (o : BV), b.outs[i]? = some o →
      ∀ y, b.recomputeC (b.deps.map fun d => (h d).output) i = some y → y = (h o).output)
    (htotal : ∀ b ∈ MEvent.blocks es, ∀ ys (i : Nat), ys.length = b.deps.length → i < b.outs.length → (b.recomputeC ys i).isSome)
    {truthy : V → Bool} {cs : List BV} (hcs : cs.Nodup) (hinputs : ∀ c ∈ cs, ∀ b ∈ MEvent.blocks es, c ∉ b.outs)
    (hchange : ∀ vs x, .change vs x ∈ es → ∀ v ∈ vs, Reach (MEvent.blocks es) (· ∈ cs) v)
    (hh : MHistory truthy cs (fun v => Reach (MEvent.blocks es) (· ∈ cs) v) τ₀ τ) (hmode : τ.mgr.mode ≠ .record)
    (hused : ∀ c ∈ cs, ∀ s ∈ τ.steps, ∃ b ∈ s.blocks, c ∈ b.deps)
    (J J' : BV) (scale : V) (a : A) {xs : List V} (hlen : xs.length = cs.length) :
    ∃ y τ₁ τ₂, rfCall truthy J cs scale xs τ = .ok (y, τ₁) ∧
      (truthy (τ.heap J).output = true → y = saved (rfEval (MEvent.blocks es) cs xs h) J * scale) ∧
      rfDerivative J' cs a τ₁ = .ok ((computeGradient (MEvent.blocks es) J' cs a (rfEval (MEvent.blocks es) cs xs h)).1, τ₂) := by
  have hst₀ : Stable (Indep (MEvent.blocks es) cs) (MEvent.blocks es) (fun v => (h v).output) := stable_indep (fun _ h => h) hfaithful
  obtain ⟨out₁, hs₁, he₁⟩ := hr.stocked hall hend hinputs fun vs x hm v hv hi => hi (hchange vs x hm v hv)
  obtain ⟨out, hs, he⟩ := hh.stocked hr.ssa hr.wellFormed hall (hst₀.congr he₁) hinputs hs₁
  have hsame : ∀ v, Indep (MEvent.blocks es) cs v → out v = (h v).output := fun v hv => (he v hv).trans (he₁ v hv)
  have hrun := rfEval_isRun hr.ssa (fun v => ⟨(hr.unused v).1, (hr.unused v).2.1⟩) hcs hinputs htotal hlen
  obtain ⟨y, τ₁, τ₂, h1, h2, h3⟩ := hs.gradient hr.ssa hr.wellFormed hall (hst₀.congr hsame) hinputs hmode hcs hused truthy J J' scale a hlen
    (h₀ := rfEval (MEvent.blocks es) cs xs h)
    (fun v => by
      obtain ⟨c, e⟩ := rfEval_frame (MEvent.blocks es) cs xs h v fun c _ => (hr.unused c).2.1
      rw [e]; exact (hr.unused v).2.2.1)
    ⟨hrun.control, fun v hv ho => (hrun.input v hv ho).trans (hsame v (indep_of_leaf' hv ho)).symm, hrun.block⟩
    (fun v hv => (IsRun.indep hr.ssa hfaithful hrun v hv).trans (hsame v hv).symm)
  exact ⟨y, τ₁, τ₂, h1, fun ht => h2 (by rw [← hs.output J]; exact ht), h3⟩

/-! ### Non-vacuity -/

/-- The first step stores `x * x` in `u`, the second one does `u *= x` in place.
Block variable 0 is made of `x`, 1 and 2 of `u`. -/
def inPlaceCube : List (MEvent Int Int Int) :=
  [.event (.block (mulBlk 0 0 1)), .event .endTimestep, .event (.block (mulBlk 1 0 2)), .change [1] 8, .event .endTimestep]

theorem inPlaceCube_wf : WF (MEvent.blocks inPlaceCube) := by
  refine ⟨by decide, ?_, ?_⟩ <;> simp [inPlaceCube, MEvent.blocks, mulBlk]

theorem inPlaceCube_reach (v : BV) (hv : v ∈ [0, 1, 2]) : Reach (MEvent.blocks inPlaceCube) (· ∈ [0]) v := by
  have r0 : Reach (MEvent.blocks inPlaceCube) (· ∈ [0]) 0 := .base (by simp)
  have r1 : Reach (MEvent.blocks inPlaceCube) (· ∈ [0]) 1 :=
    .step (b := mulBlk 0 0 1) (by simp [inPlaceCube, MEvent.blocks]) (d := 0) (by simp [mulBlk]) r0 (by simp [mulBlk])
  simp only [List.mem_cons, List.not_mem_nil, or_false] at hv
  rcases hv with rfl | rfl | rfl
  · exact r0
  · exact r1
  · exact .step (b := mulBlk 1 0 2) (by simp [inPlaceCube, MEvent.blocks]) (d := 1) (by simp [mulBlk]) r1 (by simp [mulBlk])

/-- `in_place_stored_gradient_partial` applies: `x³` recorded at 2 and all objects overwritten afterwards; at 3 the value is 27 and the
derivative 27. -/
example : ∃ τ₁ τ₂, rfCall (fun x => x != 0) 2 [0] 1 [3]
      ((tapeOf emptyTape (mrecord singleDisk2 (freshHeap [2, 4, 8]) inPlaceCube)).change [0, 1, 2] 5) = .ok (27, τ₁) ∧
    rfDerivative 2 [0] 1 τ₁ = .ok ([27], τ₂) := by
  obtain ⟨y, τ₁, τ₂, h1, h2, h3⟩ := in_place_stored_gradient_partial
    (mrecorded_of (out := [2, 4, 8]) singleDisk2_wellFormed inPlaceCube_wf (by decide +kernel)) singleDisk2_storesAll
    (Or.inr ⟨[.event (.block (mulBlk 0 0 1)), .event .endTimestep, .event (.block (mulBlk 1 0 2)), .change [1] 8], rfl⟩)
    (by
      intro b hb i o ho y hy
      simp only [inPlaceCube, MEvent.blocks, List.mem_cons, List.not_mem_nil, or_false] at hb
      rcases hb with rfl | rfl <;>
      · cases i with
        | zero => simp [mulBlk] at ho; subst ho; simp [mulBlk, freshHeap] at hy; subst hy; rfl
        | succ i => simp [mulBlk] at ho)
    (by
      intro b hb ys i hl hi
      simp only [inPlaceCube, MEvent.blocks, List.mem_cons, List.not_mem_nil, or_false] at hb
      rcases hb with rfl | rfl <;>
      · simp only [mulBlk, List.length_cons, List.length_nil] at hl
        match ys, hl with
        | [p, q], _ => simp [mulBlk])
    (truthy := fun x : Int => x != 0) (cs := [0]) (by decide) (by simp [inPlaceCube, MEvent.blocks, mulBlk])
    (by
      intro vs x hm v hv
      simp only [inPlaceCube, List.mem_cons, MEvent.change.injEq, reduceCtorEq, List.not_mem_nil, or_false,
        false_or] at hm
      obtain ⟨rfl, -⟩ := hm
      exact inPlaceCube_reach v (by simp at hv; simp [hv]))
    (.change [0, 1, 2] 5 (.start _) inPlaceCube_reach) (by decide +kernel) (by decide +kernel) 2 2 1 1 (xs := [3]) rfl
  refine ⟨τ₁, τ₂, ?_, ?_⟩
  · rw [h1, h2 (by decide +kernel)]
    congr 2
  · rw [h3]
    congr 2

/-- The forcing `f` as in `overwritten_forcing_value_wrong`, with the control used in every step: `J = x³ f₀ f₁ f₂`.  Block variables 1, 3, 6 are made of
`f`. -/
def forcedCube : List (MEvent Int Int Int) :=
  [.event (.block (mulBlk 0 1 2)), .event .endTimestep, .change [1] 10, .event (.block (mulBlk 2 3 4)), .event (.block (mulBlk 4 0 5)),
    .event .endTimestep, .change [1, 3] 100, .event (.block (mulBlk 5 6 7)), .event (.block (mulBlk 7 0 8)), .event .endTimestep]

/-- The data of the adjoint of three steps is stored on disk. -/
def singleDisk3 : Schedule where
  acts := [.forward 0 (some 3) false true .disk, .endForward, .copy 2 .disk, .reverse 3 2 true, .copy 1 .disk, .reverse 2 1 true,
    .copy 0 .disk, .reverse 1 0 true, .endReverse]
  maxN := 3

theorem singleDisk3_wellFormed : singleDisk3.WellFormed :=
  Or.inl ⟨by decide +kernel, .step 0 3 3 _ _ _ _ (by decide +kernel) (by decide +kernel) (.done _ _)⟩

theorem singleDisk3_storesAll : singleDisk3.StoresAll := by
  refine ⟨?_, ?_, ?_⟩
  · intro a ha
    simp only [singleDisk3, List.mem_cons, List.not_mem_nil, or_false] at ha
    rcases ha with rfl | rfl | rfl | rfl | rfl | rfl | rfl | rfl | rfl <;> simp [Action.stores]
  · intro N a ha
    simp [singleDisk3] at ha
  · intro N _ hN
    have : N = 3 := by simpa [singleDisk3] using hN
    subst this
    exact .copy 2 .disk true _ (.copy 1 .disk true _ (.copy 0 .disk true _ .done))

/-- **Inputs other than controls must not be changed**, also if everything the adjoint needs is stored: with the forcing set anew in each
step, the functional recorded as 8000 is 80000 when evaluated at the recorded point, and the derivative after it is 120000 and not 12000. -/
theorem overwritten_forcing_stored_wrong :
    ∃ (sch : Schedule) (h : Heap Int Int Int) (es : List (MEvent Int Int Int)) (τ : CTape Int Int Int),
      MRecorded sch h es τ ∧ sch.StoresAll ∧ τ.mgr.mode ≠ .record ∧ (∃ es', es = es' ++ [.event .endTimestep]) ∧
      (∀ s ∈ τ.steps, ∃ b ∈ s.blocks, 0 ∈ b.deps) ∧
      saved (rfEval (MEvent.blocks es) [0] [2] h) 8 = 8000 ∧
      (computeGradient (MEvent.blocks es) 8 [0] 1 (rfEval (MEvent.blocks es) [0] [2] h)).1 = [12000] ∧
      callThenDerivative 8 2 τ = some (80000, [120000]) := by
  refine ⟨singleDisk3, freshHeap [2, 1, 2, 10, 20, 40, 100, 4000, 8000], forcedCube, _,
    mrecorded_of singleDisk3_wellFormed ?_ (by decide +kernel), singleDisk3_storesAll, by decide +kernel,
    ⟨[.event (.block (mulBlk 0 1 2)), .event .endTimestep, .change [1] 10, .event (.block (mulBlk 2 3 4)), .event (.block (mulBlk 4 0 5)),
      .event .endTimestep, .change [1, 3] 100, .event (.block (mulBlk 5 6 7)), .event (.block (mulBlk 7 0 8))], rfl⟩,
    by decide +kernel, by decide +kernel, by decide +kernel, by decide +kernel⟩
  refine ⟨by decide, ?_, ?_⟩ <;> simp [forcedCube, MEvent.blocks, mulBlk]

end CTape
end Pyadjoint
