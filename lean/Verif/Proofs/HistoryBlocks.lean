import Verif.Props.History
import Verif.Model.SecondOrder

/-! Sweeps over arbitrary blocks are functions of what they read. -/

namespace Pyadjoint

variable {V T A : Type*}

/-- Two heaps agree, on the variables `P`, in what the adjoint sweep reads. -/
structure SimA (P : BV → Prop) (h₁ h₂ : Heap V T A) : Prop where
  val : ∀ v, P v → saved h₁ v = saved h₂ v
  adj : ∀ v, P v → (h₁ v).adj = (h₂ v).adj
  mark : ∀ v, P v → (h₁ v).marked = (h₂ v).marked

/-- The same for the tangent and the Hessian sweep. -/
structure SimH (P : BV → Prop) (h₁ h₂ : Heap V T A) : Prop extends SimA P h₁ h₂ where
  tlm : ∀ v, P v → (h₁ v).tlm = (h₂ v).tlm
  hess : ∀ v, P v → (h₁ v).hess = (h₂ v).hess

theorem saved_update_self (h : Heap V T A) (v : BV) (x : Var V T A) (ho : x.output = (h v).output) (hc : x.ckpt = (h v).ckpt) (w : BV) :
    saved (Function.update h v x) w = saved h w := by
  by_cases hw : w = v
  · subst hw; exact saved_congr (by rw [Function.update_self, ho]) (by rw [Function.update_self, hc])
  · exact saved_congr (by rw [Function.update_of_ne hw]) (by rw [Function.update_of_ne hw])

section
variable {P : BV → Prop} {h₁ h₂ : Heap V T A}

theorem SimA.update (s : SimA P h₁ h₂) (v : BV) (x y : Var V T A) (hx : x.output = (h₁ v).output ∧ x.ckpt = (h₁ v).ckpt)
    (hy : y.output = (h₂ v).output ∧ y.ckpt = (h₂ v).ckpt) (ha : P v → x.adj = y.adj ∧ x.marked = y.marked) :
    SimA P (Function.update h₁ v x) (Function.update h₂ v y) := by
  refine ⟨fun w hw => ?_, fun w hw => ?_, fun w hw => ?_⟩
  · rw [saved_update_self h₁ v x hx.1 hx.2, saved_update_self h₂ v y hy.1 hy.2]; exact s.val w hw
  all_goals
    by_cases e : w = v
    · subst e
      rw [Function.update_self, Function.update_self]
      first | exact (ha hw).1 | exact (ha hw).2
    · rw [Function.update_of_ne e, Function.update_of_ne e]
      first | exact s.adj w hw | exact s.mark w hw

theorem SimH.update (s : SimH P h₁ h₂) (v : BV) (x y : Var V T A) (hx : x.output = (h₁ v).output ∧ x.ckpt = (h₁ v).ckpt)
    (hy : y.output = (h₂ v).output ∧ y.ckpt = (h₂ v).ckpt)
    (ha : P v → x.adj = y.adj ∧ x.marked = y.marked ∧ x.tlm = y.tlm ∧ x.hess = y.hess) :
    SimH P (Function.update h₁ v x) (Function.update h₂ v y) := by
  refine ⟨s.toSimA.update v x y hx hy fun p => ⟨(ha p).1, (ha p).2.1⟩, fun w hw => ?_, fun w hw => ?_⟩
  all_goals
    by_cases e : w = v
    · subst e
      rw [Function.update_self, Function.update_self]
      first | exact (ha hw).2.2.1 | exact (ha hw).2.2.2
    · rw [Function.update_of_ne e, Function.update_of_ne e]
      first | exact s.tlm w hw | exact s.hess w hw

theorem SimA.relevant (s : SimA P h₁ h₂) (m : Bool) (l : List BV) (hl : ∀ v ∈ l, P v) : relevant h₁ m l = relevant h₂ m l := by
  unfold Pyadjoint.relevant
  apply List.filter_congr
  intro p hp
  rw [s.mark p.1 (hl _ (List.fst_mem_of_mem_zipIdx hp))]

theorem SimA.saved (s : SimA P h₁ h₂) (l : List BV) (hl : ∀ v ∈ l, P v) : l.map (saved h₁) = l.map (saved h₂) :=
  List.map_congr_left fun v hv => s.val v (hl v hv)

theorem relevant_mem {h : Heap V T A} {m : Bool} {l : List BV} {p : BV × Nat} (hp : p ∈ relevant h m l) : p.1 ∈ l :=
  List.fst_mem_of_mem_zipIdx (List.mem_of_mem_filter hp)

theorem SimA.addAdj? [Add A] (s : SimA P h₁ h₂) (v : BV) (a : Option A) : SimA P (addAdj? h₁ v a) (addAdj? h₂ v a) := by
  cases a with
  | none => exact s
  | some a => exact s.update v _ _ ⟨rfl, rfl⟩ ⟨rfl, rfl⟩ fun hv => ⟨by simp only [s.adj v hv], s.mark v hv⟩

theorem SimH.addTlm? [Add T] (s : SimH P h₁ h₂) (v : BV) (a : Option T) : SimH P (addTlm? h₁ v a) (addTlm? h₂ v a) := by
  cases a with
  | none => exact s
  | some a => exact s.update v _ _ ⟨rfl, rfl⟩ ⟨rfl, rfl⟩ fun hv => ⟨s.adj v hv, s.mark v hv, by simp only [s.tlm v hv], s.hess v hv⟩

theorem SimH.addHess? [Add A] (s : SimH P h₁ h₂) (v : BV) (a : Option A) : SimH P (addHess? h₁ v a) (addHess? h₂ v a) := by
  cases a with
  | none => exact s
  | some a => exact s.update v _ _ ⟨rfl, rfl⟩ ⟨rfl, rfl⟩ fun hv => ⟨s.adj v hv, s.mark v hv, s.tlm v hv, by simp only [s.hess v hv]⟩

theorem SimA.blockAdj [Add A] (s : SimA P h₁ h₂) (b : Block V T A) (hd : ∀ d ∈ b.deps, P d) (ho : ∀ o ∈ b.outs, P o) (m : Bool) :
    SimA P (b.evaluateAdj m h₁) (b.evaluateAdj m h₂) := by
  unfold Block.evaluateAdj
  have e : (b.outs.map fun o => (h₁ o).adj) = b.outs.map fun o => (h₂ o).adj := List.map_congr_left fun v hv => s.adj v (ho v hv)
  simp only [e, s.relevant m b.deps hd, s.saved b.deps hd]
  split
  · exact s
  · split
    · exact s
    · generalize Pyadjoint.relevant h₂ m b.deps = l
      generalize b.deps.map (Pyadjoint.saved h₂) = i1
      generalize b.outs.map (fun o => (h₂ o).adj) = i2
      clear * - s
      induction l generalizing h₁ h₂ with
      | nil => exact s
      | cons p l ih => exact ih (s.addAdj? _ _)

theorem SimH.blockTlm [Add T] (s : SimH P h₁ h₂) (b : Block V T A) (hd : ∀ d ∈ b.deps, P d) (ho : ∀ o ∈ b.outs, P o) (m : Bool) :
    SimH P (b.evaluateTlm m h₁) (b.evaluateTlm m h₂) := by
  unfold Block.evaluateTlm
  have e : (b.deps.map fun o => (h₁ o).tlm) = b.deps.map fun o => (h₂ o).tlm := List.map_congr_left fun v hv => s.tlm v (hd v hv)
  simp only [e, s.relevant m b.outs ho, s.saved b.deps hd]
  split
  · exact s
  · split
    · exact s
    · generalize Pyadjoint.relevant h₂ m b.outs = l
      generalize b.deps.map (Pyadjoint.saved h₂) = i1
      generalize b.deps.map (fun o => (h₂ o).tlm) = i2
      clear * - s
      induction l generalizing h₁ h₂ with
      | nil => exact s
      | cons p l ih => exact ih (s.addTlm? _ _)

theorem SimH.blockHess [Add A] (s : SimH P h₁ h₂) (b : Block V T A) (hd : ∀ d ∈ b.deps, P d) (ho : ∀ o ∈ b.outs, P o) (m : Bool) :
    SimH P (b.evaluateHessian m h₁) (b.evaluateHessian m h₂) := by
  unfold Block.evaluateHessian
  have e : (b.outs.map fun o => (h₁ o).adj) = b.outs.map fun o => (h₂ o).adj := List.map_congr_left fun v hv => s.adj v (ho v hv)
  have e' : (b.outs.map fun o => (h₁ o).hess) = b.outs.map fun o => (h₂ o).hess := List.map_congr_left fun v hv => s.hess v (ho v hv)
  have e'' : ((Pyadjoint.relevant h₂ m b.deps).map fun q => (q.2, (h₁ q.1).tlm)) = (Pyadjoint.relevant h₂ m b.deps).map fun q => (q.2, (h₂ q.1).tlm) :=
    List.map_congr_left fun q hq => by rw [s.tlm q.1 (hd _ (relevant_mem hq))]
  simp only [e, e', s.relevant m b.deps hd, s.saved b.deps hd, e'']
  split
  · exact s
  · split
    · exact s
    · generalize ((Pyadjoint.relevant h₂ m b.deps).map fun q => (q.2, (h₂ q.1).tlm)) = w
      generalize Pyadjoint.relevant h₂ m b.deps = l
      generalize b.deps.map (Pyadjoint.saved h₂) = i1
      generalize b.outs.map (fun o => (h₂ o).adj) = i2
      generalize b.outs.map (fun o => (h₂ o).hess) = i3
      clear * - s
      induction l generalizing h₁ h₂ with
      | nil => exact s
      | cons p l ih => exact ih (s.addHess? _ _)

theorem SimA.evaluateAdj [Add A] (s : SimA P h₁ h₂) (bs : Blocks V T A) (hP : ∀ v, OnTape bs v → P v) (m : Bool) :
    SimA P (evaluateAdj bs m h₁) (evaluateAdj bs m h₂) := by
  unfold Pyadjoint.evaluateAdj
  have hP' : ∀ b ∈ bs.reverse, (∀ d ∈ b.deps, P d) ∧ ∀ o ∈ b.outs, P o := fun b hb =>
    ⟨fun d hd => hP d ⟨b, List.mem_reverse.1 hb, Or.inl hd⟩, fun d hd => hP d ⟨b, List.mem_reverse.1 hb, Or.inr hd⟩⟩
  revert hP'
  generalize bs.reverse = l
  intro hP'
  clear * - s hP'
  induction l generalizing h₁ h₂ with
  | nil => exact s
  | cons b l ih => exact ih (s.blockAdj b (hP' b (by simp)).1 (hP' b (by simp)).2 m) fun c hc => hP' c (by simp [hc])

theorem SimH.evaluateTlm [Add T] (s : SimH P h₁ h₂) (bs : Blocks V T A) (hP : ∀ v, OnTape bs v → P v) (m : Bool) :
    SimH P (evaluateTlm bs m h₁) (evaluateTlm bs m h₂) := by
  unfold Pyadjoint.evaluateTlm
  have hP' : ∀ b ∈ bs, (∀ d ∈ b.deps, P d) ∧ ∀ o ∈ b.outs, P o := fun b hb =>
    ⟨fun d hd => hP d ⟨b, hb, Or.inl hd⟩, fun d hd => hP d ⟨b, hb, Or.inr hd⟩⟩
  clear * - s hP'
  induction bs generalizing h₁ h₂ with
  | nil => exact s
  | cons b l ih => exact ih (s.blockTlm b (hP' b (by simp)).1 (hP' b (by simp)).2 m) fun c hc => hP' c (by simp [hc])

theorem SimH.evaluateHessian [Add A] (s : SimH P h₁ h₂) (bs : Blocks V T A) (hP : ∀ v, OnTape bs v → P v) (m : Bool) :
    SimH P (evaluateHessian bs m h₁) (evaluateHessian bs m h₂) := by
  unfold Pyadjoint.evaluateHessian
  have hP' : ∀ b ∈ bs.reverse, (∀ d ∈ b.deps, P d) ∧ ∀ o ∈ b.outs, P o := fun b hb =>
    ⟨fun d hd => hP d ⟨b, List.mem_reverse.1 hb, Or.inl hd⟩, fun d hd => hP d ⟨b, List.mem_reverse.1 hb, Or.inr hd⟩⟩
  revert hP'
  generalize bs.reverse = l
  intro hP'
  clear * - s hP'
  induction l generalizing h₁ h₂ with
  | nil => exact s
  | cons b l ih => exact ih (s.blockHess b (hP' b (by simp)).1 (hP' b (by simp)).2 m) fun c hc => hP' c (by simp [hc])

theorem SimA.markAll (s : SimA P h₁ h₂) (ns : List BV) (m : Bool) : SimA P (markAll ns m h₁) (markAll ns m h₂) := by
  unfold Pyadjoint.markAll
  induction ns generalizing h₁ h₂ with
  | nil => exact s
  | cons n ns ih => exact ih (s.update n _ _ ⟨rfl, rfl⟩ ⟨rfl, rfl⟩ fun hv => ⟨s.adj n hv, rfl⟩)

theorem SimH.markAll (s : SimH P h₁ h₂) (ns : List BV) (m : Bool) : SimH P (markAll ns m h₁) (markAll ns m h₂) := by
  unfold Pyadjoint.markAll
  induction ns generalizing h₁ h₂ with
  | nil => exact s
  | cons n ns ih => exact ih (s.update n _ _ ⟨rfl, rfl⟩ ⟨rfl, rfl⟩ fun hv => ⟨s.adj n hv, rfl, s.tlm n hv, s.hess n hv⟩)

theorem SimA.markControls (s : SimA P h₁ h₂) (ns : List BV) (m : Bool) : SimA P (markControls ns m h₁) (markControls ns m h₂) := by
  unfold Pyadjoint.markControls
  induction ns generalizing h₁ h₂ with
  | nil => exact s
  | cons n ns ih => exact ih (s.update n _ _ ⟨rfl, rfl⟩ ⟨rfl, rfl⟩ fun hv => ⟨s.adj n hv, s.mark n hv⟩)

theorem SimH.seedTlm (s : SimH P h₁ h₂) (cs : List BV) (ds : List T) : SimH P (seedTlm cs ds h₁) (seedTlm cs ds h₂) := by
  unfold Pyadjoint.seedTlm
  generalize cs.zip ds = l
  induction l generalizing h₁ h₂ with
  | nil => exact s
  | cons n ns ih => exact ih (s.update n.1 _ _ ⟨rfl, rfl⟩ ⟨rfl, rfl⟩ fun hv => ⟨s.adj _ hv, s.mark _ hv, rfl, s.hess _ hv⟩)

/-- The adjoint values `compute_gradient` leaves are a function of the saved values. -/
theorem SimA.computeGradientState [Add A] (bs : Blocks V T A) (J : BV) (cs : List BV) (seed : A)
    (hsv : ∀ v, OnTape bs v → Pyadjoint.saved h₁ v = Pyadjoint.saved h₂ v) (hmk : ∀ v, OnTape bs v → (h₁ v).marked = (h₂ v).marked) :
    SimA (OnTape bs) (computeGradientState bs J cs seed h₁) (computeGradientState bs J cs seed h₂) := by
  unfold Pyadjoint.computeGradientState markedAdjoint
  simp only []
  have s : SimA (OnTape bs) (resetVariables bs .adjoint h₁) (resetVariables bs .adjoint h₂) := by
    refine ⟨fun v hv => ?_, fun v hv => ?_, fun v hv => ?_⟩
    · rw [saved_resetVariables, saved_resetVariables]; exact hsv v hv
    · rw [resetVariables_apply, resetVariables_apply, if_pos hv, if_pos hv]; rfl
    · rw [resetVariables_apply, resetVariables_apply, if_pos hv, if_pos hv]; exact hmk v hv
  have s := s.update J { resetVariables bs .adjoint h₁ J with adj := some seed } { resetVariables bs .adjoint h₂ J with adj := some seed } ⟨rfl, rfl⟩ ⟨rfl, rfl⟩
    fun hv => ⟨rfl, s.mark J hv⟩
  exact ((((s.markAll _ true).markControls cs true).evaluateAdj bs (fun _ h => h) true).markControls cs false).markAll _ false

/-- The heap `compute_hessian` leaves is a function of the saved and the adjoint values. -/
theorem SimH.computeHessianOf [Add T] [Add A] [Zero A] {bs : Blocks V T A} (s : SimA (OnTape bs) h₁ h₂) (J : BV) (cs : List BV) (ds : List T) :
    SimH (OnTape bs) (computeHessianOf bs J cs ds h₁).2 (computeHessianOf bs J cs ds h₂).2 := by
  unfold Pyadjoint.computeHessianOf
  simp only []
  have s : SimH (OnTape bs) (resetVariables bs .hessian (resetVariables bs .tlm h₁)) (resetVariables bs .hessian (resetVariables bs .tlm h₂)) := by
    refine ⟨⟨fun v hv => ?_, fun v hv => ?_, fun v hv => ?_⟩, fun v hv => ?_, fun v hv => ?_⟩
    · rw [saved_resetVariables, saved_resetVariables, saved_resetVariables, saved_resetVariables]; exact s.val v hv
    all_goals simp only [resetVariables_apply, if_pos hv, Var.reset]
    · exact s.adj v hv
    · exact s.mark v hv
  have s := ((((s.seedTlm cs ds).markAll (findRelevantNodes bs cs) true).evaluateTlm bs (fun _ h => h) true)).markAll (findRelevantNodes bs cs) false
  have s := s.update J { (Pyadjoint.markAll (findRelevantNodes bs cs) false (Pyadjoint.evaluateTlm bs true (Pyadjoint.markAll (findRelevantNodes bs cs) true
    (Pyadjoint.seedTlm cs ds (resetVariables bs .hessian (resetVariables bs .tlm h₁)))))) J with hess := some 0 } { (Pyadjoint.markAll (findRelevantNodes bs cs) false (Pyadjoint.evaluateTlm bs true (Pyadjoint.markAll (findRelevantNodes bs cs) true
    (Pyadjoint.seedTlm cs ds (resetVariables bs .hessian (resetVariables bs .tlm h₂)))))) J with hess := some 0 } ⟨rfl, rfl⟩ ⟨rfl, rfl⟩
    fun hv => ⟨s.adj J hv, s.mark J hv, s.tlm J hv, rfl⟩
  exact ((s.markAll _ true).evaluateHessian bs (fun _ h => h) true).markAll _ false

end

end Pyadjoint
