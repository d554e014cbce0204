import Verif.Model.SecondOrder
import Verif.Props.Duality
import Verif.Props.Scale
import Verif.Props.HistoryBlocks

/-!
# C85: tangents and Hessian actions are linear in the direction

A Krylov solver (Newton-CG, TAO, ROL) takes `rf.hessian` for a linear operator.  Some of the second-order formulas of `adjfloat.py`
are wrong (C06); this file shows that what the code computes is nevertheless linear in the direction, for every tape,
and that whether it raises does not depend on the direction.
-/

namespace Pyadjoint

variable {V T A K : Type*} [Semiring K] [AddCommMonoid T] [Module K T] [AddCommMonoid A] [Module K A]

/-! ## Specification -/

/-- The combination `r·d + s·e` of two directions, entry by entry. -/
def combDir (r s : K) (d e : List T) : List T := List.zipWith (fun x y => r • x + s • y) d e

/-- A block whose tangent method is linear in the incoming tangents. -/
def IsLinearTlm (K : Type*) [Semiring K] [Module K T] (b : Block V T A) : Prop :=
  ∀ (r s : K) (inputs : List V) (x y : List (Option T)) (i : Nat), x.map Option.isNone = y.map Option.isNone →
    (b.tlmC inputs x i).isNone = (b.tlmC inputs y i).isNone ∧
    b.tlmC inputs (List.zipWith (combO r s) x y) i = combO r s (b.tlmC inputs x i) (b.tlmC inputs y i)

/-- A block whose Hessian method is linear in the incoming Hessian values and tangents together, for fixed adjoint values. -/
def IsLinearHess (K : Type*) [Semiring K] [Module K T] [Module K A] (b : Block V T A) : Prop :=
  ∀ (r s : K) (inputs : List V) (x y : List (Option A)) (adj : List (Option A)) (i : Nat) (l : List (Nat × Option T × Option T)),
    x.map Option.isNone = y.map Option.isNone → (∀ p ∈ l, p.2.1.isNone = p.2.2.isNone) →
    (b.hessC inputs x adj i (l.map fun p => (p.1, p.2.1))).isNone = (b.hessC inputs y adj i (l.map fun p => (p.1, p.2.2))).isNone ∧
    b.hessC inputs (List.zipWith (combO r s) x y) adj i (l.map fun p => (p.1, combO r s p.2.1 p.2.2))
      = combO r s (b.hessC inputs x adj i (l.map fun p => (p.1, p.2.1))) (b.hessC inputs y adj i (l.map fun p => (p.1, p.2.2)))

/-! ## Three heaps, the third a combination of the first two -/

/-- On the variables in `P` the three heaps agree except for tangent and Hessian values, and those of the third are the combinations
(for the Hessian values only if `W` holds). -/
def Lin3 (W : Prop) (r s : K) (P : BV → Prop) (h₁ h₂ h₃ : Heap V T A) : Prop :=
  ∀ v, P v → (saved h₁ v = saved h₂ v ∧ saved h₁ v = saved h₃ v) ∧ ((h₁ v).marked = (h₂ v).marked ∧ (h₁ v).marked = (h₃ v).marked) ∧
    ((h₁ v).adj = (h₂ v).adj ∧ (h₁ v).adj = (h₃ v).adj) ∧
    ((h₁ v).tlm.isNone = (h₂ v).tlm.isNone ∧ (h₃ v).tlm = combO r s (h₁ v).tlm (h₂ v).tlm) ∧
    (W → (h₁ v).hess.isNone = (h₂ v).hess.isNone ∧ (h₃ v).hess = combO r s (h₁ v).hess (h₂ v).hess)

variable {W : Prop} {r s : K} {P : BV → Prop} {h₁ h₂ h₃ : Heap V T A}

theorem combO_add {B : Type*} [AddCommMonoid B] [Module K B] (a b c d : B) :
    r • (a + b) + s • (c + d) = (r • a + s • c) + (r • b + s • d) := by
  rw [smul_add, smul_add, add_add_add_comm]

omit [AddCommMonoid A] in
theorem saved_addTlm (h : Heap V T A) (v w : BV) (a : T) : saved (addTlm h v a) w = saved h w := by
  unfold addTlm saved
  by_cases hw : w = v
  · subst hw; simp
  · rw [Function.update_of_ne hw]

omit [AddCommMonoid T] in
theorem saved_addHess (h : Heap V T A) (v w : BV) (a : A) : saved (addHess h v a) w = saved h w := by
  unfold addHess saved
  by_cases hw : w = v
  · subst hw; simp
  · rw [Function.update_of_ne hw]

theorem Lin3.addTlm? (H : Lin3 W r s P h₁ h₂ h₃) (v : BV) (x y : Option T) (hp : x.isNone = y.isNone) :
    Lin3 W r s P (addTlm? h₁ v x) (addTlm? h₂ v y) (addTlm? h₃ v (combO r s x y)) := by
  cases x with
  | none => cases y with
    | none => exact H
    | some y => cases hp
  | some x => cases y with
    | none => cases hp
    | some y =>
      intro w hw
      obtain ⟨e1, e2, e3, e4, e5⟩ := H w hw
      simp only [Pyadjoint.addTlm?, combO, saved_addTlm]
      refine ⟨e1, ?_⟩
      unfold addTlm
      by_cases hwv : w = v
      · subst hwv
        simp only [Function.update_self]
        refine ⟨e2, e3, ?_, e5⟩
        rw [e4.2]
        revert e4
        cases (h₁ w).tlm <;> cases (h₂ w).tlm <;> intro e4
        · exact ⟨rfl, rfl⟩
        · cases e4.1
        · cases e4.1
        · exact ⟨rfl, by simp only [combO]; rw [combO_add]⟩
      · simp only [Function.update_of_ne hwv]
        exact ⟨e2, e3, e4, e5⟩

theorem Lin3.addHess (H : Lin3 W r s P h₁ h₂ h₃) (v : BV) (x y : A) :
    Lin3 W r s P (addHess h₁ v x) (addHess h₂ v y) (addHess h₃ v (r • x + s • y)) := by
  intro w hw
  obtain ⟨e1, e2, e3, e4, e5⟩ := H w hw
  simp only [saved_addHess]
  refine ⟨e1, ?_⟩
  unfold Pyadjoint.addHess
  by_cases hwv : w = v
  · subst hwv
    simp only [Function.update_self]
    refine ⟨e2, e3, e4, fun hW => ?_⟩
    have e5 := e5 hW
    rw [e5.2]
    revert e5
    cases (h₁ w).hess <;> cases (h₂ w).hess <;> intro e5
    · exact ⟨rfl, rfl⟩
    · cases e5.1
    · cases e5.1
    · exact ⟨rfl, by simp only [combO]; rw [combO_add]⟩
  · simp only [Function.update_of_ne hwv]
    exact ⟨e2, e3, e4, e5⟩

theorem Lin3.addHess? (H : Lin3 W r s P h₁ h₂ h₃) (v : BV) (x y : Option A) (hp : x.isNone = y.isNone) :
    Lin3 W r s P (addHess? h₁ v x) (addHess? h₂ v y) (addHess? h₃ v (combO r s x y)) := by
  cases x with
  | none => cases y with
    | none => exact H
    | some y => cases hp
  | some x => cases y with
    | none => cases hp
    | some y => exact H.addHess v x y

omit [AddCommMonoid T] [AddCommMonoid A] in
theorem relevant_eq {h h' : Heap V T A} {l : List BV} (hm : ∀ v ∈ l, (h v).marked = (h' v).marked) (m : Bool) :
    relevant h m l = relevant h' m l := by
  unfold relevant
  apply List.filter_congr
  intro p hp
  rw [hm p.1 (List.fst_mem_of_mem_zipIdx hp)]

theorem Lin3.foldl {α : Type*} (l : List α) {f₁ f₂ f₃ : Heap V T A → α → Heap V T A}
    (hf : ∀ a ∈ l, ∀ k₁ k₂ k₃, Lin3 W r s P k₁ k₂ k₃ → Lin3 W r s P (f₁ k₁ a) (f₂ k₂ a) (f₃ k₃ a)) (H : Lin3 W r s P h₁ h₂ h₃) :
    Lin3 W r s P (l.foldl f₁ h₁) (l.foldl f₂ h₂) (l.foldl f₃ h₃) := by
  induction l generalizing h₁ h₂ h₃ with
  | nil => exact H
  | cons a l ih => exact ih (fun b hb => hf b (by simp [hb])) (hf a (by simp) _ _ _ H)

/-- A field of the outputs or dependencies of a block, in the three heaps. -/
theorem zip_field {B : Type*} [AddCommMonoid B] [Module K B] (l : List BV) (f₁ f₂ f₃ : BV → Option B)
    (hf : ∀ v ∈ l, (f₁ v).isNone = (f₂ v).isNone ∧ f₃ v = combO r s (f₁ v) (f₂ v)) :
    (l.map f₁).map Option.isNone = (l.map f₂).map Option.isNone ∧ l.map f₃ = List.zipWith (combO r s) (l.map f₁) (l.map f₂) ∧
      ((l.map f₁).all Option.isNone = (l.map f₂).all Option.isNone) ∧ ((l.map f₁).all Option.isNone = (l.map f₃).all Option.isNone) := by
  have h3 : ∀ v ∈ l, (f₁ v).isNone = (f₃ v).isNone := by
    intro v hv
    obtain ⟨a, b⟩ := hf v hv
    rw [b]
    revert a
    cases f₁ v <;> cases f₂ v <;> simp [combO]
  refine ⟨?_, ?_, ?_, ?_⟩
  · rw [List.map_map, List.map_map]; exact List.map_congr_left fun v hv => (hf v hv).1
  · rw [List.zipWith_map, List.zipWith_self]; exact List.map_congr_left fun v hv => (hf v hv).2
  · induction l with
    | nil => rfl
    | cons a l ih =>
      simp only [List.map_cons, List.all_cons]
      rw [(hf a (by simp)).1, ih (fun v hv => hf v (by simp [hv])) (fun v hv => h3 v (by simp [hv]))]
  · induction l with
    | nil => rfl
    | cons a l ih =>
      simp only [List.map_cons, List.all_cons]
      rw [h3 a (by simp), ih (fun v hv => hf v (by simp [hv])) (fun v hv => h3 v (by simp [hv]))]

theorem Lin3.blockTlm (H : Lin3 W r s P h₁ h₂ h₃) (b : Block V T A) (hb : ∀ v, v ∈ b.deps ∨ v ∈ b.outs → P v)
    (hlin : IsLinearTlm K b) (m : Bool) : Lin3 W r s P (b.evaluateTlm m h₁) (b.evaluateTlm m h₂) (b.evaluateTlm m h₃) := by
  obtain ⟨z1, z2, z3, z4⟩ := zip_field (r := r) (s := s) b.deps (fun d => (h₁ d).tlm) (fun d => (h₂ d).tlm) (fun d => (h₃ d).tlm)
    fun v hv => (H v (hb v (.inl hv))).2.2.2.1
  have s2 : b.deps.map (saved h₂) = b.deps.map (saved h₁) := List.map_congr_left fun v hv => (H v (hb v (.inl hv))).1.1.symm
  have s3 : b.deps.map (saved h₃) = b.deps.map (saved h₁) := List.map_congr_left fun v hv => (H v (hb v (.inl hv))).1.2.symm
  have r2 : relevant h₂ m b.outs = relevant h₁ m b.outs := relevant_eq (fun v hv => (H v (hb v (.inr hv))).2.1.1.symm) m
  have r3 : relevant h₃ m b.outs = relevant h₁ m b.outs := relevant_eq (fun v hv => (H v (hb v (.inr hv))).2.1.2.symm) m
  unfold Block.evaluateTlm
  simp only []
  rw [← z3, ← z4, s2, s3, r2, r3, z2]
  split
  · exact H
  · split
    · exact H
    · refine Lin3.foldl _ (fun p _ k₁ k₂ k₃ hk => ?_) H
      rw [(hlin r s _ _ _ p.2 z1).2]
      exact hk.addTlm? _ _ _ (hlin r s _ _ _ p.2 z1).1

theorem Lin3.blockHess (H : Lin3 True r s P h₁ h₂ h₃) (b : Block V T A) (hb : ∀ v, v ∈ b.deps ∨ v ∈ b.outs → P v)
    (hlin : IsLinearHess K b) (m : Bool) :
    Lin3 True r s P (b.evaluateHessian m h₁) (b.evaluateHessian m h₂) (b.evaluateHessian m h₃) := by
  obtain ⟨z1, z2, z3, z4⟩ := zip_field (r := r) (s := s) b.outs (fun d => (h₁ d).hess) (fun d => (h₂ d).hess) (fun d => (h₃ d).hess)
    fun v hv => (H v (hb v (.inr hv))).2.2.2.2 trivial
  have s2 : b.deps.map (saved h₂) = b.deps.map (saved h₁) := List.map_congr_left fun v hv => (H v (hb v (.inl hv))).1.1.symm
  have s3 : b.deps.map (saved h₃) = b.deps.map (saved h₁) := List.map_congr_left fun v hv => (H v (hb v (.inl hv))).1.2.symm
  have a2 : b.outs.map (fun o => (h₂ o).adj) = b.outs.map (fun o => (h₁ o).adj) :=
    List.map_congr_left fun v hv => (H v (hb v (.inr hv))).2.2.1.1.symm
  have a3 : b.outs.map (fun o => (h₃ o).adj) = b.outs.map (fun o => (h₁ o).adj) :=
    List.map_congr_left fun v hv => (H v (hb v (.inr hv))).2.2.1.2.symm
  have r2 : relevant h₂ m b.deps = relevant h₁ m b.deps := relevant_eq (fun v hv => (H v (hb v (.inl hv))).2.1.1.symm) m
  have r3 : relevant h₃ m b.deps = relevant h₁ m b.deps := relevant_eq (fun v hv => (H v (hb v (.inl hv))).2.1.2.symm) m
  unfold Block.evaluateHessian
  simp only []
  rw [← z3, ← z4, s2, s3, r2, r3, z2, a2, a3]
  split
  · exact H
  · split
    · exact H
    · refine Lin3.foldl _ (fun p _ k₁ k₂ k₃ hk => ?_) H
      have hin : ∀ q ∈ relevant h₁ m b.deps, P q.1 := fun q hq => by
        apply hb; left
        exact List.fst_mem_of_mem_zipIdx (List.mem_filter.1 hq).1
      have key := hlin r s (b.deps.map (saved h₁)) _ _ (b.outs.map fun o => (h₁ o).adj) p.2
        ((relevant h₁ m b.deps).map fun q => (q.2, (h₁ q.1).tlm, (h₂ q.1).tlm)) z1 (by
          intro q hq
          obtain ⟨q', hq', rfl⟩ := List.mem_map.1 hq
          exact (H _ (hin q' hq')).2.2.2.1.1)
      simp only [List.map_map, Function.comp_def] at key
      have e3 : ((relevant h₁ m b.deps).map fun q => (q.2, (h₃ q.1).tlm))
          = (relevant h₁ m b.deps).map fun q => (q.2, combO r s (h₁ q.1).tlm (h₂ q.1).tlm) :=
        List.map_congr_left fun q hq => by rw [(H _ (hin q hq)).2.2.2.1.2]
      rw [e3, key.2]
      exact hk.addHess? _ _ _ key.1

/-! ### Marks and seeds -/

theorem Lin3.markAll (H : Lin3 W r s P h₁ h₂ h₃) (ns : List BV) (m : Bool) :
    Lin3 W r s P (markAll ns m h₁) (markAll ns m h₂) (markAll ns m h₃) := by
  intro v hv
  obtain ⟨e1, e2, e3, e4, e5⟩ := H v hv
  simp only [saved_markAll, markAll_apply]
  by_cases hn : v ∈ ns
  · simp only [hn, if_true]; exact ⟨e1, ⟨trivial, trivial⟩, e3, e4, e5⟩
  · simp only [hn, if_false]; exact ⟨e1, e2, e3, e4, e5⟩

theorem Lin3.seed (H : Lin3 W r s P h₁ h₂ h₃) (cs : List BV) (d e : List T) (hl : d.length = e.length) :
    Lin3 W r s P (seedTlm cs d h₁) (seedTlm cs e h₂) (seedTlm cs (combDir r s d e) h₃) := by
  induction cs generalizing d e h₁ h₂ h₃ with
  | nil => exact H
  | cons c cs ih =>
    cases d with
    | nil =>
      cases e with
      | nil => exact H
      | cons y e => cases hl
    | cons x d =>
      cases e with
      | nil => cases hl
      | cons y e =>
        refine ih ?_ d e (by simpa using hl)
        intro v hv
        obtain ⟨e1, e2, e3, e4, e5⟩ := H v hv
        by_cases hc : v = c
        · subst hc
          simp only [saved, Function.update_self] at e1 ⊢
          exact ⟨e1, e2, e3, ⟨rfl, rfl⟩, e5⟩
        · simp only [saved, Function.update_of_ne hc] at e1 ⊢
          exact ⟨e1, e2, e3, e4, e5⟩

theorem Lin3.seedHess (H : Lin3 W r s P h₁ h₂ h₃) (J : BV) :
    Lin3 W r s P (Function.update h₁ J { h₁ J with hess := some 0 }) (Function.update h₂ J { h₂ J with hess := some 0 })
      (Function.update h₃ J { h₃ J with hess := some 0 }) := by
  intro v hv
  obtain ⟨e1, e2, e3, e4, e5⟩ := H v hv
  by_cases hc : v = J
  · subst hc
    simp only [saved, Function.update_self] at e1 ⊢
    exact ⟨e1, e2, e3, e4, by simp [combO]⟩
  · simp only [saved, Function.update_of_ne hc] at e1 ⊢
    exact ⟨e1, e2, e3, e4, e5⟩

/-- Two states of the variables that differ in tangent and Hessian values only: an interval in which tangents and Hessian
actions were computed, and nothing else. -/
def SameButDirections (h h' : Heap V T A) : Prop := ∀ v, ∃ t a, h' v = { h v with tlm := t, hess := a }

omit [AddCommMonoid T] [AddCommMonoid A] in
theorem SameButDirections.refl (h : Heap V T A) : SameButDirections h h := fun _ => ⟨_, _, rfl⟩

omit [AddCommMonoid T] [AddCommMonoid A] in
theorem SameButDirections.trans {h h' h'' : Heap V T A} (a : SameButDirections h h') (b : SameButDirections h' h'') : SameButDirections h h'' := by
  intro v
  obtain ⟨t, x, e⟩ := a v
  obtain ⟨t', x', e'⟩ := b v
  exact ⟨t', x', by rw [e', e]⟩

theorem Lin3.reset (bs : Blocks V T A) {h h₂ h₃ : Heap V T A} (s2 : SameButDirections h h₂) (s3 : SameButDirections h h₃) :
    Lin3 W r s (OnTape bs) (resetVariables bs .hessian (resetVariables bs .tlm h)) (resetVariables bs .hessian (resetVariables bs .tlm h₂))
      (resetVariables bs .hessian (resetVariables bs .tlm h₃)) := by
  intro v hv
  obtain ⟨t2, a2, e2⟩ := s2 v
  obtain ⟨t3, a3, e3⟩ := s3 v
  have s2' : saved h₂ v = saved h v := by unfold saved; rw [e2]
  have s3' : saved h₃ v = saved h v := by unfold saved; rw [e3]
  simp only [saved_resetVariables]
  refine ⟨⟨s2'.symm, s3'.symm⟩, ?_⟩
  simp only [resetVariables_apply, if_pos hv, Var.reset, e2, e3]
  simp [combO]

/-! ## C85 for blocks with linear methods -/

theorem Lin3.sweepTlm (bs bs' : Blocks V T A) (hsub : ∀ b ∈ bs', b ∈ bs) (hlin : ∀ b ∈ bs, IsLinearTlm K b) (m : Bool)
    (H : Lin3 W r s (OnTape bs) h₁ h₂ h₃) : Lin3 W r s (OnTape bs) (evaluateTlm bs' m h₁) (evaluateTlm bs' m h₂) (evaluateTlm bs' m h₃) := by
  unfold evaluateTlm
  exact Lin3.foldl _ (fun b hb k₁ k₂ k₃ hk => hk.blockTlm b (fun v hv => ⟨b, hsub b hb, hv⟩) (hlin b (hsub b hb)) m) H

theorem Lin3.sweepHess (bs : Blocks V T A) (hlin : ∀ b ∈ bs, IsLinearHess K b) (m : Bool)
    (H : Lin3 True r s (OnTape bs) h₁ h₂ h₃) : Lin3 True r s (OnTape bs) (evaluateHessian bs m h₁) (evaluateHessian bs m h₂) (evaluateHessian bs m h₃) := by
  unfold evaluateHessian
  exact Lin3.foldl _ (fun b hb k₁ k₂ k₃ hk =>
    hk.blockHess b (fun v hv => ⟨b, List.mem_reverse.1 hb, hv⟩) (hlin b (List.mem_reverse.1 hb)) m) H

theorem getHessian_comb (P : BV → Prop) (H : Lin3 True r s P h₁ h₂ h₃) (v : BV) (hv : P v) :
    getHessian h₃ v = r • getHessian h₁ v + s • getHessian h₂ v := by
  obtain ⟨_, _, _, _, e5⟩ := H v hv
  have e5 := e5 trivial
  unfold getHessian
  rw [e5.2]
  revert e5
  cases (h₁ v).hess <;> cases (h₂ v).hess <;> intro e5
  · simp [combO]
  · cases e5.1
  · cases e5.1
  · rfl

/-- **C85.** The Hessian action of a tape of blocks with linear methods is linear in the direction: three calls, with nothing between
them but other tangent and Hessian computations. -/
theorem hessian_linear_in_direction (bs : Blocks V T A) (ht : ∀ b ∈ bs, IsLinearTlm K b) (hh : ∀ b ∈ bs, IsLinearHess K b) (r s : K)
    (J : BV) (cs : List BV) (hon : ∀ c ∈ cs, OnTape bs c) (d e : List T) (hl : d.length = e.length) {h h' h'' : Heap V T A}
    (s2 : SameButDirections h h') (s3 : SameButDirections h h'') :
    (computeHessianOf bs J cs (combDir r s d e) h'').1
      = List.zipWith (fun x y => r • x + s • y) (computeHessianOf bs J cs d h).1 (computeHessianOf bs J cs e h').1 := by
  have H := ((((((Lin3.reset (W := True) (r := r) (s := s) bs s2 s3).seed cs d e hl).markAll (findRelevantNodes bs cs) true).sweepTlm bs bs
    (fun _ h => h) ht true).markAll (findRelevantNodes bs cs) false).seedHess J).markAll (findRelevantNodes bs cs) true
  have H := (H.sweepHess bs hh true).markAll (findRelevantNodes bs cs) false
  unfold computeHessianOf
  simp only []
  rw [List.zipWith_map, List.zipWith_self]
  exact List.map_congr_left fun c hc => getHessian_comb _ H c (hon c hc)

/-! ## C85 for `AdjFloat` tapes -/

section float

variable {a b : ℝ} {Q : BV → Prop} {k₁ k₂ k₃ : FHeap}

/-- Three runs that raise alike, or end in three heaps related by `Lin3`. -/
def Lin3E (a b : ℝ) (Q : BV → Prop) : Except FBlock.PyErr FHeap → Except FBlock.PyErr FHeap → Except FBlock.PyErr FHeap → Prop
  | .ok h₁, .ok h₂, .ok h₃ => Lin3 True a b Q h₁ h₂ h₃
  | .error _, .error _, .error _ => True
  | _, _, _ => False

/-- Three numbers, or three exceptions. -/
def LinV (a b : ℝ) : Except FBlock.PyErr ℝ → Except FBlock.PyErr ℝ → Except FBlock.PyErr ℝ → Prop
  | .ok x, .ok y, .ok z => z = a * x + b * y
  | .error _, .error _, .error _ => True
  | _, _, _ => False

theorem Lin3E.bind {x₁ x₂ x₃ : Except FBlock.PyErr FHeap} {f₁ f₂ f₃ : FHeap → Except FBlock.PyErr FHeap} (H : Lin3E a b Q x₁ x₂ x₃)
    (hf : ∀ g₁ g₂ g₃, Lin3 True a b Q g₁ g₂ g₃ → Lin3E a b Q (f₁ g₁) (f₂ g₂) (f₃ g₃)) : Lin3E a b Q (x₁ >>= f₁) (x₂ >>= f₂) (x₃ >>= f₃) := by
  cases x₁ <;> cases x₂ <;> cases x₃ <;> first | exact hf _ _ _ H | exact H | trivial

theorem LinV.bind {x₁ x₂ x₃ : Except FBlock.PyErr ℝ} {f₁ f₂ f₃ : ℝ → Except FBlock.PyErr FHeap} (H : LinV a b x₁ x₂ x₃)
    (hf : ∀ y₁ y₂ , Lin3E a b Q (f₁ y₁) (f₂ y₂) (f₃ (a * y₁ + b * y₂))) : Lin3E a b Q (x₁ >>= f₁) (x₂ >>= f₂) (x₃ >>= f₃) := by
  cases x₁ <;> cases x₂ <;> cases x₃ <;> first | trivial | exact H.elim | skip
  cases H
  exact hf _ _

theorem Lin3E.foldlM {α : Type*} (l : List α) {f₁ f₂ f₃ : FHeap → α → Except FBlock.PyErr FHeap}
    (hf : ∀ p ∈ l, ∀ g₁ g₂ g₃, Lin3 True a b Q g₁ g₂ g₃ → Lin3E a b Q (f₁ g₁ p) (f₂ g₂ p) (f₃ g₃ p)) (H : Lin3 True a b Q k₁ k₂ k₃) :
    Lin3E a b Q (l.foldlM f₁ k₁) (l.foldlM f₂ k₂) (l.foldlM f₃ k₃) := by
  induction l generalizing k₁ k₂ k₃ with
  | nil => exact H
  | cons p l ih =>
    simp only [List.foldlM_cons]
    exact (hf p (by simp) _ _ _ H).bind fun g₁ g₂ g₃ hg => ih (fun q hq => hf q (by simp [hq])) hg

/-- Linearity of a component method that may raise. -/
def LinComp (a b : ℝ) (comp : List ℝ → ℝ → Option ℝ → Nat → List (Nat × Option ℝ) → Except FBlock.PyErr ℝ) : Prop :=
  ∀ inputs (x y : ℝ) adj i (l : List (Nat × Option ℝ × Option ℝ)), (∀ p ∈ l, p.2.1.isNone = p.2.2.isNone) →
    LinV a b (comp inputs x adj i (l.map fun p => (p.1, p.2.1))) (comp inputs y adj i (l.map fun p => (p.1, p.2.2)))
      (comp inputs (a * x + b * y) adj i (l.map fun p => (p.1, combO a b p.2.1 p.2.2)))

theorem Lin3.default {comp} (hc : LinComp a b comp) (deps : List BV) (o : BV) (hd : ∀ v ∈ deps, Q v) (ho : Q o) (m : Bool)
    (H : Lin3 True a b Q k₁ k₂ k₃) : Lin3E a b Q (FBlock.evaluateHessianDefault deps o m comp k₁) (FBlock.evaluateHessianDefault deps o m comp k₂)
      (FBlock.evaluateHessianDefault deps o m comp k₃) := by
  have s2 : deps.map (saved k₂) = deps.map (saved k₁) := List.map_congr_left fun v hv => (H v (hd v hv)).1.1.symm
  have s3 : deps.map (saved k₃) = deps.map (saved k₁) := List.map_congr_left fun v hv => (H v (hd v hv)).1.2.symm
  have r2 : relevant k₂ m deps = relevant k₁ m deps := relevant_eq (fun v hv => (H v (hd v hv)).2.1.1.symm) m
  have r3 : relevant k₃ m deps = relevant k₁ m deps := relevant_eq (fun v hv => (H v (hd v hv)).2.1.2.symm) m
  obtain ⟨_, _, ea, _, eh⟩ := H o ho
  have eh := eh trivial
  unfold FBlock.evaluateHessianDefault
  simp only []
  rw [s2, s3, r2, r3, ← ea.1, ← ea.2, eh.2]
  revert eh
  cases (k₁ o).hess <;> cases (k₂ o).hess <;> intro eh
  · exact H
  · cases eh.1
  · cases eh.1
  · rename_i x y
    simp only [combO]
    have hin : ∀ q ∈ relevant k₁ m deps, Q q.1 := fun q hq => hd _ (List.fst_mem_of_mem_zipIdx (List.mem_filter.1 hq).1)
    refine Lin3E.foldlM _ (fun p _ g₁ g₂ g₃ hg => ?_) H
    have key := hc (deps.map (saved k₁)) x y (k₁ o).adj p.2 ((relevant k₁ m deps).map fun q => (q.2, (k₁ q.1).tlm, (k₂ q.1).tlm)) (by
      intro q hq
      obtain ⟨q', hq', rfl⟩ := List.mem_map.1 hq
      exact (H _ (hin q' hq')).2.2.2.1.1)
    simp only [List.map_map, Function.comp_def] at key
    have e3 : ((relevant k₁ m deps).map fun q => (q.2, (k₃ q.1).tlm))
        = (relevant k₁ m deps).map fun q => (q.2, combO a b (k₁ q.1).tlm (k₂ q.1).tlm) :=
      List.map_congr_left fun q hq => by rw [(H _ (hin q hq)).2.2.2.1.2]
    rw [e3]
    exact key.bind fun y₁ y₂ => hg.addHess _ _ _

theorem linComp_ok (f : List ℝ → Nat → ℝ) {comp} (hf : ∀ i x ad n l, comp i x ad n l = .ok (x * f i n)) : LinComp a b comp := by
  intro i x y ad n l _
  rw [hf, hf, hf]
  show (a * x + b * y) * f i n = a * (x * f i n) + b * (y * f i n)
  ring

/-- One turn of the loop of `MulBlock.evaluate_hessian_component`. -/
noncomputable def mulTurn (ad : Option ℝ) (n : Nat) (acc : ℝ × Nat) (q : Nat × Option ℝ) : Except FBlock.PyErr (ℝ × Nat) :=
  match decide (q.1 ≠ n), q.2 with
  | true, some t => do
    let l ← FBlock.needFloat ad
    pure (l * t, q.1)
  | _, _ => pure (acc.1, q.1)

/-- The result of the loop. -/
theorem mulHessC_eq (i : List ℝ) (x : ℝ) (ad : Option ℝ) (n : Nat) (l : List (Nat × Option ℝ)) :
    FBlock.mulHessC i x ad n l
      = (l.foldlM (m := Except FBlock.PyErr) (mulTurn ad n) (0, if n = 1 then 0 else 1)).map fun p => p.1 + x * i.getD p.2 0 := by
  unfold FBlock.mulHessC
  show (l.foldlM (m := Except FBlock.PyErr) (mulTurn ad n) (0, if n = 1 then 0 else 1) >>= _) = _
  cases l.foldlM (m := Except FBlock.PyErr) (mulTurn ad n) (0, if n = 1 then 0 else 1) <;> rfl

/-- Three runs of the loop. -/
def LinP (a b : ℝ) : Except FBlock.PyErr (ℝ × Nat) → Except FBlock.PyErr (ℝ × Nat) → Except FBlock.PyErr (ℝ × Nat) → Prop
  | .ok x, .ok y, .ok z => z.1 = a * x.1 + b * y.1 ∧ x.2 = y.2 ∧ x.2 = z.2
  | .error _, .error _, .error _ => True
  | _, _, _ => False

theorem mulTurns_lin (ad : Option ℝ) (n : Nat) (l : List (Nat × Option ℝ × Option ℝ)) (hl : ∀ p ∈ l, p.2.1.isNone = p.2.2.isNone)
    (u w : ℝ) (k : Nat) : LinP a b ((l.map fun p => (p.1, p.2.1)).foldlM (mulTurn ad n) (u, k))
      ((l.map fun p => (p.1, p.2.2)).foldlM (mulTurn ad n) (w, k))
      ((l.map fun p => (p.1, combO a b p.2.1 p.2.2)).foldlM (mulTurn ad n) (a * u + b * w, k)) := by
  induction l generalizing u w k with
  | nil => exact ⟨rfl, rfl, rfl⟩
  | cons p l ih =>
    obtain ⟨j, x, y⟩ := p
    have hp : x.isNone = y.isNone := hl _ List.mem_cons_self
    have ih := fun u w k => ih (fun p hp => hl p (by simp [hp])) u w k
    simp only [List.map_cons, List.foldlM_cons]
    cases x with
    | none =>
      cases y with
      | none =>
        have : ∀ c : ℝ, mulTurn ad n (c, k) (j, none) = .ok (c, j) := by
          intro c; unfold mulTurn; cases decide (j ≠ n) <;> rfl
        simp only [combO, this]
        exact ih u w j
      | some y => cases hp
    | some x =>
      cases y with
      | none => cases hp
      | some y =>
        by_cases hj : j = n
        · have : ∀ c t : ℝ, mulTurn ad n (c, k) (j, some t) = .ok (c, j) := by
            intro c t; unfold mulTurn; simp [hj]; rfl
          simp only [combO, this]
          exact ih u w j
        · cases ad with
          | none =>
            have : ∀ c t : ℝ, mulTurn none n (c, k) (j, some t) = .error .typeError := by
              intro c t; unfold mulTurn; simp [hj, FBlock.needFloat]
            simp only [combO, this]
            trivial
          | some l' =>
            have : ∀ c t : ℝ, mulTurn (some l') n (c, k) (j, some t) = .ok (l' * t, j) := by
              intro c t; unfold mulTurn; simp [hj, FBlock.needFloat]
            simp only [combO, this]
            have := ih (l' * x) (l' * y) j
            have e : a * (l' * x) + b * (l' * y) = l' * (a • x + b • y) := by simp only [smul_eq_mul]; ring
            rw [e] at this
            exact this

theorem linComp_mul : LinComp a b FBlock.mulHessC := by
  intro i x y ad n l hl
  rw [mulHessC_eq, mulHessC_eq, mulHessC_eq]
  have := mulTurns_lin (a := a) (b := b) ad n l hl 0 0 (if n = 1 then 0 else 1)
  rw [mul_zero, mul_zero, add_zero] at this
  revert this
  generalize (l.map fun p => (p.1, p.2.1)).foldlM (m := Except FBlock.PyErr) (mulTurn ad n) _ = x₁
  generalize (l.map fun p => (p.1, p.2.2)).foldlM (m := Except FBlock.PyErr) (mulTurn ad n) _ = x₂
  generalize (l.map fun p => (p.1, combO a b p.2.1 p.2.2)).foldlM (m := Except FBlock.PyErr) (mulTurn ad n) _ = x₃
  intro H
  cases x₁ <;> cases x₂ <;> cases x₃ <;> first | trivial | exact H.elim | skip
  obtain ⟨e1, e2, e3⟩ := H
  show _ + _ * _ = a * (_ + _ * _) + b * (_ + _ * _)
  rw [e1, ← e2, ← e3]
  ring

theorem FBlock.linearTlm (blk : FBlock) : IsLinearTlm ℝ blk.toBlock := by
  intro r s i x y n hp
  have h0 : ∀ k : Nat, ((x[k]?).join.isNone = (y[k]?).join.isNone) ∧
      ((List.zipWith (combO r s) x y)[k]?).join = combO r s (x[k]?).join (y[k]?).join := by
    intro k
    have hk := congrArg (fun l => l[k]?) hp
    simp only [List.getElem?_map] at hk
    rw [List.getElem?_zipWith]
    cases hx : x[k]? with
    | none => cases hy : y[k]? with
      | none => simp [combO]
      | some w => rw [hx, hy] at hk; cases hk
    | some u => cases hy : y[k]? with
      | none => rw [hx, hy] at hk; cases hk
      | some w =>
        rw [hx, hy] at hk
        simp only [Option.map_some, Option.some.injEq] at hk
        exact ⟨hk, rfl⟩
  obtain ⟨p0, c0⟩ := h0 0
  obtain ⟨p1, c1⟩ := h0 1
  cases blk with
  | un op u o =>
    simp only [FBlock.toBlock]
    rw [c0]
    revert p0
    cases (x[0]?).join <;> cases (y[0]?).join <;> intro p0 <;> cases i[0]? <;> simp_all [combO]
    cases op <;> simp only [UOp.tlmC] <;> ring
  | bin op u w o =>
    simp only [FBlock.toBlock]
    rw [c0, c1]
    cases i[0]? with
    | none => simp [combO]
    | some X =>
      cases i[1]? with
      | none => simp [combO]
      | some Y =>
        simp only [Option.bind_some]
        revert p0 p1
        generalize (x[0]?).join = a1
        generalize (y[0]?).join = a2
        generalize (x[1]?).join = b1
        generalize (y[1]?).join = b2
        intro p0 p1
        cases op with
        | add =>
          clear hp h0 c0 c1
          cases a1 <;> cases a2 <;> try cases p0
          all_goals cases b1 <;> cases b2 <;> try cases p1
          all_goals simp only [BOp.tlmC, combO, Option.getD, smul_eq_mul]; refine ⟨by trivial, congrArg some ?_⟩; ring
        | mul =>
          clear hp h0 c0 c1
          cases a1 <;> cases a2 <;> try cases p0
          all_goals cases b1 <;> cases b2 <;> try cases p1
          all_goals simp only [BOp.tlmC, combO, Option.getD, Option.map, smul_eq_mul]; refine ⟨by trivial, congrArg some ?_⟩; ring
        | min => simp only [BOp.tlmC]; split <;> exact ⟨by assumption, rfl⟩
        | max => simp only [BOp.tlmC]; split <;> exact ⟨by assumption, rfl⟩
        | sub => simp [BOp.tlmC, combO]
        | div => simp [BOp.tlmC, combO]
        | pow => simp [BOp.tlmC, combO]

/-- Numbers computed from a value of the heap that is there or not there in all three. -/
theorem comb_map (x y : Option ℝ) (hp : x.isNone = y.isNone) (c : ℝ) {f : ℝ → ℝ} (hf : ∀ t, f t = t * c) :
    (x.map f).isNone = (y.map f).isNone ∧ (combO a b x y).map f = combO a b (x.map f) (y.map f) := by
  cases x <;> cases y <;> simp_all [combO]
  ring

theorem Lin3.tangentAdd (H : Lin3 W a b Q k₁ k₂ k₃) (v x : BV) (hv : Q v) (f : ℝ → ℝ) (c : ℝ) (hf : ∀ t, f t = t * c) :
    Lin3 W a b Q (Pyadjoint.addTlm? k₁ x ((k₁ v).tlm.map f)) (Pyadjoint.addTlm? k₂ x ((k₂ v).tlm.map f))
      (Pyadjoint.addTlm? k₃ x ((k₃ v).tlm.map f)) := by
  obtain ⟨_, _, _, e4, _⟩ := H v hv
  have := comb_map (a := a) (b := b) (k₁ v).tlm (k₂ v).tlm e4.1 c hf
  rw [e4.2, this.2]
  exact H.addTlm? _ _ _ this.1

theorem saved_addTlm? (h : FHeap) (v w : BV) (x : Option ℝ) : saved (addTlm? h v x) w = saved h w := by
  cases x with
  | none => rfl
  | some x => exact saved_addTlm h v w x

theorem Lin3.fTlm (H : Lin3 W a b Q k₁ k₂ k₃) (blk : FBlock) (hq : ∀ v, v ∈ blk.deps ∨ v = blk.out → Q v) (m : Bool) :
    Lin3 W a b Q (blk.evaluateTlm m k₁) (blk.evaluateTlm m k₂) (blk.evaluateTlm m k₃) := by
  have hgen : Lin3 W a b Q (blk.toBlock.evaluateTlm m k₁) (blk.toBlock.evaluateTlm m k₂) (blk.toBlock.evaluateTlm m k₃) := by
    refine H.blockTlm blk.toBlock (fun v hv => hq v ?_) blk.linearTlm m
    cases blk <;> simpa [FBlock.toBlock, FBlock.deps, FBlock.out] using hv
  cases blk with
  | un op x o => exact hgen
  | bin op x y o =>
    have hx : Q x := hq x (.inl (by simp [FBlock.deps]))
    have hy : Q y := hq y (.inl (by simp [FBlock.deps]))
    cases op with
    | add => exact hgen
    | mul => exact hgen
    | min => exact hgen
    | max => exact hgen
    | sub =>
      unfold FBlock.evaluateTlm
      have := (H.tangentAdd x o hx (fun t => t) 1 (by simp)).tangentAdd y o hy (fun t => -t) (-1) (by simp)
      simp only [Option.map_id_fun', id_eq] at this
      exact this
    | div =>
      unfold FBlock.evaluateTlm
      simp only [saved_addTlm?]
      rw [← (H x hx).1.1, ← (H x hx).1.2, ← (H y hy).1.1, ← (H y hy).1.2]
      exact (H.tangentAdd x o hx _ _ fun _ => rfl).tangentAdd y o hy _ _ fun _ => rfl
    | pow =>
      unfold FBlock.evaluateTlm
      simp only []
      rw [← (H x hx).1.1, ← (H x hx).1.2, ← (H y hy).1.1, ← (H y hy).1.2]
      exact (H.tangentAdd x o hx _ _ fun _ => mul_assoc _ _ _).tangentAdd y o hy _ _ fun _ => mul_assoc _ _ _

/-- The tangent of a variable is missing in all three heaps or in none. -/
theorem Lin3.tangentCases (H : Lin3 True a b Q k₁ k₂ k₃) (v : BV) (hv : Q v) :
    ((k₁ v).tlm = none ∧ (k₂ v).tlm = none ∧ (k₃ v).tlm = none) ∨
      ∃ u w, (k₁ v).tlm = some u ∧ (k₂ v).tlm = some w ∧ (k₃ v).tlm = some (a * u + b * w) := by
  obtain ⟨_, _, _, e4, _⟩ := H v hv
  revert e4
  cases (k₁ v).tlm <;> cases (k₂ v).tlm <;> intro e4
  · exact .inl ⟨rfl, rfl, e4.2⟩
  · cases e4.1
  · cases e4.1
  · exact .inr ⟨_, _, rfl, rfl, e4.2⟩

theorem Lin3.mixedTerm (H : Lin3 True a b Q k₁ k₂ k₃) (v x : BV) (hv : Q v) (c : ℝ) :
    Lin3 True a b Q (Pyadjoint.addHess? k₁ x ((k₁ v).tlm.map fun t => t * c)) (Pyadjoint.addHess? k₂ x ((k₂ v).tlm.map fun t => t * c))
      (Pyadjoint.addHess? k₃ x ((k₃ v).tlm.map fun t => t * c)) := by
  obtain ⟨_, _, _, e4, _⟩ := H v hv
  have := comb_map (a := a) (b := b) (k₁ v).tlm (k₂ v).tlm e4.1 c (f := fun t => t * c) (fun _ => rfl)
  rw [e4.2, this.2]
  exact H.addHess? _ _ _ this.1

theorem Lin3.scaled (H : Lin3 True a b Q k₁ k₂ k₃) (x : BV) (u w : ℝ) (f : ℝ → ℝ) (c : ℝ) (hf : ∀ t, f t = t * c) :
    Lin3 True a b Q (Pyadjoint.addHess k₁ x (f u)) (Pyadjoint.addHess k₂ x (f w)) (Pyadjoint.addHess k₃ x (f (a * u + b * w))) := by
  have := H.addHess x (f u) (f w)
  rw [show a • f u + b • f w = f (a * u + b * w) by simp only [smul_eq_mul, hf]; ring] at this
  exact this

/-- The Hessian sweep of a power after its first term (`adjfloat.py:406-431`). -/
noncomputable def powTail (ad : Option ℝ) (X Y : ℝ) (x y : BV) (hin : ℝ) (h : FHeap) : Except FBlock.PyErr FHeap := do
  let h := addHess h x ((hin * Y) * X ^ (Y - 1))
  let h ← match (h y).tlm with
    | none => pure h
    | some t => do
      let l ← FBlock.needFloat ad
      pure (addHess h y (((l * (Real.log X) ^ 2) * X ^ Y) * t))
  let h := addHess h y ((hin * Real.log X) * X ^ Y)
  let l ← FBlock.needFloat ad
  let mixed := l * (X ^ (Y - 1) * (Y * Real.log X + 1))
  let h := addHess? h x ((h y).tlm.map fun t => t * mixed)
  let h := addHess? h y ((h x).tlm.map fun t => t * mixed)
  pure h

theorem Lin3.powTail (H : Lin3 True a b Q k₁ k₂ k₃) (ad : Option ℝ) (X Y : ℝ) (x y : BV) (hx : Q x) (hy : Q y) (u w : ℝ) :
    Lin3E a b Q (powTail ad X Y x y u k₁) (powTail ad X Y x y w k₂) (powTail ad X Y x y (a * u + b * w) k₃) := by
  unfold Pyadjoint.powTail
  simp only []
  have G := H.scaled x u w (fun t => (t * Y) * X ^ (Y - 1)) (Y * X ^ (Y - 1)) fun _ => mul_assoc _ _ _
  rcases G.tangentCases y hy with ⟨e1, e2, e3⟩ | ⟨p, q, e1, e2, e3⟩
  · rw [e1, e2, e3]
    cases ad with
    | none => trivial
    | some l =>
      exact ((G.scaled y u w (fun t => (t * Real.log X) * X ^ Y) (Real.log X * X ^ Y) fun _ => mul_assoc _ _ _).mixedTerm
        y x hy _).mixedTerm x y hx _
  · rw [e1, e2, e3]
    cases ad with
    | none => trivial
    | some l =>
      exact (((G.scaled y p q (fun t => ((l * (Real.log X) ^ 2) * X ^ Y) * t) _ fun _ => mul_comm _ _).scaled y u w
        (fun t => (t * Real.log X) * X ^ Y) (Real.log X * X ^ Y) fun _ => mul_assoc _ _ _).mixedTerm y x hy _).mixedTerm x y hx _

theorem Lin3.fHess (H : Lin3 True a b Q k₁ k₂ k₃) (blk : FBlock) (hq : ∀ v, v ∈ blk.deps ∨ v = blk.out → Q v) (m : Bool) :
    Lin3E a b Q (blk.evaluateHessian m k₁) (blk.evaluateHessian m k₂) (blk.evaluateHessian m k₃) := by
  cases blk with
  | un op x o =>
    have hx : Q x := hq x (.inl (by simp [FBlock.deps]))
    have ho : Q o := hq o (.inr rfl)
    have hd : ∀ v ∈ [x], Q v := by simpa using hx
    cases op with
    | neg =>
      unfold FBlock.evaluateHessian
      simp only []
      obtain ⟨_, _, _, _, e5⟩ := H o ho
      have e5 := e5 trivial
      rw [e5.2]
      revert e5
      cases (k₁ o).hess <;> cases (k₂ o).hess <;> intro e5
      · exact H
      · cases e5.1
      · cases e5.1
      · rename_i u w
        have := H.addHess x (-u) (-w)
        rw [show a • -u + b • -w = -(a • u + b • w) by simp only [smul_eq_mul]; ring] at this
        exact this
    | exp =>
      unfold FBlock.evaluateHessian
      refine H.default (linComp_ok (fun i _ => Real.exp (i.getD 0 0)) ?_) _ _ hd ho m
      intros; rw [mul_comm]
    | log =>
      unfold FBlock.evaluateHessian
      refine H.default (linComp_ok (fun i _ => -(1 / i.getD 0 0 / i.getD 0 0)) ?_) _ _ hd ho m
      intros; congr 1; ring
  | bin op x y o =>
    have hx : Q x := hq x (.inl (by simp [FBlock.deps]))
    have hy : Q y := hq y (.inl (by simp [FBlock.deps]))
    have ho : Q o := hq o (.inr rfl)
    have hd : ∀ v ∈ [x, y], Q v := by intro v hv; rcases List.mem_pair.1 hv with rfl | rfl <;> assumption
    cases op with
    | add => exact H.default (linComp_ok (fun _ _ => 1) (by intros; rw [mul_one])) _ _ hd ho m
    | mul => exact H.default linComp_mul _ _ hd ho m
    | min =>
      unfold FBlock.evaluateHessian
      refine H.default (linComp_ok (fun i n => BOp.adjC .min (i.getD 0 0) (i.getD 1 0) 1 n) ?_) _ _ hd ho m
      intro i x _ n _; congr 1; simp only [BOp.adjC]; split <;> simp
    | max =>
      unfold FBlock.evaluateHessian
      refine H.default (linComp_ok (fun i n => BOp.adjC .max (i.getD 0 0) (i.getD 1 0) 1 n) ?_) _ _ hd ho m
      intro i x _ n _; congr 1; simp only [BOp.adjC]; split <;> simp
    | sub =>
      unfold FBlock.evaluateHessian
      simp only []
      obtain ⟨_, _, _, _, e5⟩ := H o ho
      have e5 := e5 trivial
      rw [e5.2]
      revert e5
      cases (k₁ o).hess <;> cases (k₂ o).hess <;> intro e5
      · exact H
      · cases e5.1
      · cases e5.1
      · rename_i u w
        have := (H.addHess x u w).addHess y (-u) (-w)
        rw [show a • -u + b • -w = -(a • u + b • w) by simp only [smul_eq_mul]; ring] at this
        exact this
    | div =>
      unfold FBlock.evaluateHessian
      simp only []
      obtain ⟨_, _, ea, _, e5⟩ := H o ho
      have e5 := e5 trivial
      rw [e5.2, ← (H x hx).1.1, ← (H x hx).1.2, ← (H y hy).1.1, ← (H y hy).1.2, ← ea.1, ← ea.2]
      generalize saved k₁ x = X
      generalize saved k₁ y = Y
      generalize (k₁ o).adj = ad
      revert e5
      cases (k₁ o).hess <;> cases (k₂ o).hess <;> intro e5
      · exact H
      · cases e5.1
      · cases e5.1
      · rename_i u w
        simp only [combO, smul_eq_mul]
        have G := (H.scaled x u w (fun t => t * (1 / Y)) (1 / Y) fun _ => rfl).scaled
          y u w (fun t => t * (-(X / Y ^ (2 : ℝ)))) (-(X / Y ^ (2 : ℝ))) fun _ => rfl
        rcases G.tangentCases y hy with ⟨e1, e2, e3⟩ | ⟨p, q, e1, e2, e3⟩
        · rw [e1, e2, e3]
          cases ad with
          | none => trivial
          | some l => exact (G.mixedTerm y x hy _).mixedTerm x y hx _
        · rw [e1, e2, e3]
          cases ad with
          | none => trivial
          | some l =>
            exact ((G.scaled y p q (fun t => (l * ((2 * X) / Y ^ 3)) * t) _ fun _ => mul_comm _ _).mixedTerm y x hy _).mixedTerm x y hx _
    | pow =>
      unfold FBlock.evaluateHessian
      simp only []
      obtain ⟨_, _, ea, _, e5⟩ := H o ho
      have e5 := e5 trivial
      rw [e5.2, ← (H x hx).1.1, ← (H x hx).1.2, ← (H y hy).1.1, ← (H y hy).1.2, ← ea.1, ← ea.2]
      generalize saved k₁ x = X
      generalize saved k₁ y = Y
      generalize (k₁ o).adj = ad
      revert e5
      cases (k₁ o).hess <;> cases (k₂ o).hess <;> intro e5
      · exact H
      · cases e5.1
      · cases e5.1
      · rename_i u w
        simp only [combO, smul_eq_mul]
        rcases H.tangentCases x hx with ⟨e1, e2, e3⟩ | ⟨p, q, e1, e2, e3⟩
        · rw [e1, e2, e3]
          exact H.powTail ad X Y x y hx hy u w
        · rw [e1, e2, e3]
          cases ad with
          | none => trivial
          | some l =>
            exact (H.scaled x p q (fun t => ((l * (Y * (Y - 1))) * X ^ (Y - 2)) * t) _ fun _ => mul_comm _ _).powTail (some l) X Y x y hx hy u w

/-! ### The sweeps -/

theorem FBlock.onTape {t : FTape} {blk : FBlock} (hb : blk ∈ t) (v : BV) (hv : v ∈ blk.deps ∨ v = blk.out) : OnTape t.blocks v := by
  refine ⟨blk.toBlock, List.mem_map_of_mem hb, ?_⟩
  cases blk <;> simpa [FBlock.toBlock, FBlock.deps, FBlock.out] using hv

theorem Lin3.fSweepTlm (t : FTape) (H : Lin3 W a b (OnTape t.blocks) k₁ k₂ k₃) (m : Bool) :
    Lin3 W a b (OnTape t.blocks) (t.evaluateTlm m k₁) (t.evaluateTlm m k₂) (t.evaluateTlm m k₃) := by
  unfold FTape.evaluateTlm
  exact Lin3.foldl _ (fun blk hb g₁ g₂ g₃ hg => hg.fTlm blk (FBlock.onTape hb) m) H

theorem Lin3.fSweepHess (t : FTape) (H : Lin3 True a b (OnTape t.blocks) k₁ k₂ k₃) (m : Bool) :
    Lin3E a b (OnTape t.blocks) (t.evaluateHessian m k₁) (t.evaluateHessian m k₂) (t.evaluateHessian m k₃) := by
  unfold FTape.evaluateHessian
  exact Lin3E.foldlM _ (fun blk hb g₁ g₂ g₃ hg => hg.fHess blk (FBlock.onTape (List.mem_reverse.1 hb)) m) H

/-- **C85.** Tangents are linear in the direction: the tangents of all variables on the tape, for every tape of `AdjFloat` operations. -/
theorem tangents_linear (t : FTape) (cs : List BV) (a b : ℝ) (d e : List ℝ) (hl : d.length = e.length) (h : FHeap) (m : Bool) (v : BV)
    (hv : OnTape t.blocks v) :
    (t.evaluateTlm m (seedTlm cs (combDir a b d e) (resetVariables t.blocks .tlm h)) v).tlm
      = combO a b (t.evaluateTlm m (seedTlm cs d (resetVariables t.blocks .tlm h)) v).tlm
          (t.evaluateTlm m (seedTlm cs e (resetVariables t.blocks .tlm h)) v).tlm := by
  have H : Lin3 False a b (OnTape t.blocks) (resetVariables t.blocks .tlm h) (resetVariables t.blocks .tlm h) (resetVariables t.blocks .tlm h) := by
    intro w hw
    refine ⟨⟨rfl, rfl⟩, ⟨rfl, rfl⟩, ⟨rfl, rfl⟩, ⟨rfl, ?_⟩, fun h => h.elim⟩
    simp [resetVariables_apply, hw, Var.reset, combO]
  exact ((H.seed cs d e hl).fSweepTlm t m v hv).2.2.2.1.2

/-- **C85.** The Hessian action of a tape of `AdjFloat` operations is linear in the direction, right or wrong as it may be (C06), whatever was computed
before: for three calls with nothing between them but other tangent and Hessian computations, if one of them raises all three do, and otherwise the
result for the combination is the combination of the results. -/
theorem float_hessian_linear (t : FTape) (a b : ℝ) (J : BV) (cs : List BV) (hon : ∀ c ∈ cs, OnTape t.blocks c) (d e : List ℝ)
    (hl : d.length = e.length) {h h' h'' : FHeap} (s2 : SameButDirections h h') (s3 : SameButDirections h h'') :
    match t.computeHessian J cs d h, t.computeHessian J cs e h', t.computeHessian J cs (combDir a b d e) h'' with
    | .ok x, .ok y, .ok z => z.1 = combDir a b x.1 y.1
    | .error _, .error _, .error _ => True
    | _, _, _ => False := by
  have H := ((((((Lin3.reset (W := True) (r := a) (s := b) t.blocks s2 s3).seed cs d e hl).markAll (findRelevantNodes t.blocks cs) true).fSweepTlm t
    true).markAll (findRelevantNodes t.blocks cs) false).seedHess J).markAll (findRelevantNodes t.blocks cs) true
  have H := H.fSweepHess t true
  unfold FTape.computeHessian
  simp only []
  revert H
  generalize t.evaluateHessian true _ = x₁
  generalize t.evaluateHessian true _ = x₂
  generalize t.evaluateHessian true _ = x₃
  intro H
  cases x₁ <;> cases x₂ <;> cases x₃ <;> first | trivial | exact H.elim | skip
  simp only []
  unfold combDir
  rw [List.zipWith_map, List.zipWith_self]
  have H := Lin3.markAll H (findRelevantNodes t.blocks cs) false
  exact List.map_congr_left fun c hc => getHessian_comb _ H c (hon c hc)

/-- Linearity at one state. -/
theorem float_hessian_ok {t : FTape} {a b : ℝ} {J : BV} {cs : List BV} (hon : ∀ c ∈ cs, OnTape t.blocks c) {d e : List ℝ}
    (hl : d.length = e.length) {h h' h'' : FHeap} (s2 : SameButDirections h h') (s3 : SameButDirections h h'') {x : List ℝ} {g : FHeap}
    (hok : t.computeHessian J cs d h = .ok (x, g)) :
    ∃ y g' g'', t.computeHessian J cs e h' = .ok (y, g') ∧ t.computeHessian J cs (combDir a b d e) h'' = .ok (combDir a b x y, g'') := by
  have H := float_hessian_linear t a b J cs hon d e hl s2 s3
  rw [hok] at H
  cases h1 : t.computeHessian J cs e h' with
  | error _ => rw [h1] at H; cases t.computeHessian J cs (combDir a b d e) h'' <;> exact H.elim
  | ok y =>
    rw [h1] at H
    cases h2 : t.computeHessian J cs (combDir a b d e) h'' with
    | error _ => rw [h2] at H; exact H.elim
    | ok z =>
      rw [h2] at H
      exact ⟨y.1, y.2, z.2, rfl, by rw [← (show z.1 = combDir a b x y.1 from H)]⟩

/-- **C85.** `rf.hessian` in user terms: after a call `rf.hessian(d)` that returns, the calls `rf.hessian(e)` and then
`rf.hessian(a·d + b·e)` return, and the last one returns `a` times the first result plus `b` times the second. -/
theorem rf_hessian_linear (rf : RF ℝ) (t : FTape) (wf : WF t.blocks) (cs : List BV) (hcs : rf.controls = .list cs)
    (hon : ∀ c ∈ cs, OnTape t.blocks c) (a b : ℝ) (d e : List ℝ) (hd : d.length = cs.length) (he : e.length = cs.length) {h h₁ : FHeap}
    (hmk : ∀ v, (h v).marked = false) {x : List ℝ} (h1 : rf.hessian t (.list d) h = .ok (.many x, h₁)) :
    ∃ y h₂ h₃, rf.hessian t (.list e) h₁ = .ok (.many y, h₂) ∧
      rf.hessian t (.list (combDir a b d e)) h₂ = .ok (.many (combDir a b x y), h₃) := by
  have ef : ∀ (l : List ℝ) (k : FHeap), l.length = cs.length → rf.hessian t (.list l) k = match t.computeHessian rf.J cs l k with
      | .error .typeError => .error .typeError
      | .ok (r, h') => .ok (.many r, h') := by
    intro l k hk
    simp only [RF.hessian, RF.enlisted, hcs, Enlist.of, hk, lt_irrefl, if_false]
    cases hc : t.computeHessian rf.J cs l k with
    | error e => cases e; rfl
    | ok r => rfl
  have hc : (combDir a b d e).length = cs.length := by simp [combDir, hd, he]
  rw [ef _ _ hd] at h1
  cases k1 : t.computeHessian rf.J cs d h with
  | error e => rw [k1] at h1; cases e; cases h1
  | ok r =>
    obtain ⟨x', g⟩ := r
    rw [k1] at h1
    cases h1
    have s1 : SameButDirections h h₁ := fun v => computeHessian_frame t (FTape.WF_self wf) rf.J cs d h hmk x h₁ k1 v
    obtain ⟨y, h₂, -, k2, -⟩ := float_hessian_ok (a := a) (b := b) hon (hd.trans he.symm) s1 s1 k1
    have hmk₁ : ∀ v, (h₁ v).marked = false := by intro v; obtain ⟨p, q, e⟩ := s1 v; rw [e]; exact hmk v
    have s2 : SameButDirections h h₂ := s1.trans fun v => computeHessian_frame t (FTape.WF_self wf) rf.J cs e h₁ hmk₁ y h₂ k2 v
    obtain ⟨y', g', h₃, k2', k3⟩ := float_hessian_ok (a := a) (b := b) hon (hd.trans he.symm) s1 s2 k1
    rw [k2] at k2'
    cases k2'
    exact ⟨y, h₂, h₃, by rw [ef _ _ he, k2], by rw [ef _ _ hc, k3]⟩

/-- A program with a product and an exponential. -/
def linTape : FTape := [.bin .mul 0 1 2, .un .exp 2 3]

theorem linTape_wf : WF linTape.blocks := by
  constructor <;> simp [linTape, FTape.blocks, FBlock.toBlock]

theorem linTape_on (v : BV) (hv : v = 0 ∨ v = 1) : OnTape linTape.blocks v :=
  FBlock.onTape (blk := .bin .mul 0 1 2) (by simp [linTape]) v (.inl (by simpa [FBlock.deps] using hv))

/-- The functional `exp(x·y)` of the program. -/
def linRF : RF ℝ := { J := 3, controls := .list [0, 1], scale := 1 }

/-- The hypotheses hold after a derivative of the functional: its Hessian actions are linear.  (They are not the second derivatives: the program has
an exponential.) -/
example (d e : ℝ × ℝ) (a b : ℝ) :
    let h := (computeGradient linTape.blocks 3 [0, 1] 1 unitHeap).2
    ∃ x h₁ y h₂ h₃, linRF.hessian linTape (.list [d.1, d.2]) h = .ok (.many x, h₁) ∧ linRF.hessian linTape (.list [e.1, e.2]) h₁ = .ok (.many y, h₂) ∧
      linRF.hessian linTape (.list [a • d.1 + b • e.1, a • d.2 + b • e.2]) h₂ = .ok (.many (combDir a b x y), h₃) := by
  intro h
  have hok : ∃ x h₁, linRF.hessian linTape (.list [d.1, d.2]) h = .ok (.many x, h₁) := ⟨_, _, rfl⟩
  obtain ⟨x, h₁, hok⟩ := hok
  have hmk : ∀ v, (h v).marked = false := by
    intro v
    show (computeGradientState linTape.blocks 3 [0, 1] (1 : ℝ) unitHeap v).marked = false
    unfold computeGradientState markedAdjoint
    simp only []
    generalize linTape.blocks = bs
    rw [markAll_apply]
    split
    · rfl
    · rename_i hn
      simp only [markControls_marked, evaluateAdj_marked]
      rw [markAll_apply, if_neg hn]
      by_cases hv : v = 3
      · subst hv; simp [unitHeap]
      · simp [Function.update_of_ne hv, unitHeap]
  obtain ⟨y, h₂, h₃, e1, e2⟩ := rf_hessian_linear linRF linTape linTape_wf [0, 1] rfl
    (fun c hc => linTape_on c (by simpa using hc)) a b [d.1, d.2] [e.1, e.2] rfl rfl hmk hok
  exact ⟨x, h₁, y, h₂, h₃, hok, e1, e2⟩

end float

/-! ### A user block with linear methods -/

/-- Squaring integers, with the right second-order method. -/
def sqLin (x o : BV) : Block Int Int Int where
  deps := [x]
  outs := [o]
  recomputeC i _ := (i[0]?).map fun v => v * v
  adjC i l _ := (l[0]?).join.map fun l => l * (2 * i.getD 0 0)
  tlmC i t _ := (t[0]?).join.map fun t => t * (2 * i.getD 0 0)
  hessC i hs l _ rel := (hs[0]?).join.map fun hin => hin * (2 * i.getD 0 0) + (((rel[0]?).bind Prod.snd).getD 0) * (2 * ((l[0]?).join.getD 0))

theorem sqLin_tlm (x o : BV) : IsLinearTlm Int (sqLin x o) := by
  intro r s i u w n hp
  simp only [sqLin]
  cases u <;> cases w <;> first | exact ⟨rfl, rfl⟩ | (simp at hp; done) | skip
  rename_i u us w ws
  simp only [List.map_cons, List.cons.injEq] at hp
  have hp := hp.1
  cases u <;> cases w <;> first | exact ⟨rfl, rfl⟩ | (simp at hp; done) | skip
  simp [combO]
  ring

theorem sqLin_hess (x o : BV) : IsLinearHess Int (sqLin x o) := by
  intro r s i u w l n rel hp hr
  simp only [sqLin]
  cases u <;> cases w <;> first | exact ⟨rfl, rfl⟩ | (simp at hp; done) | skip
  rename_i u us w ws
  simp only [List.map_cons, List.cons.injEq] at hp
  have hp := hp.1
  cases u <;> cases w <;> first | exact ⟨rfl, rfl⟩ | (simp at hp; done) | skip
  cases rel with
  | nil => simp [combO]; ring
  | cons p rel =>
    obtain ⟨j, p, q⟩ := p
    have hpq := hr _ List.mem_cons_self
    simp only at hpq
    cases p <;> cases q <;> first | (simp at hpq; done) | skip
    · simp [combO]; ring
    · simp [combO]; ring

/-- `x⁴` by squaring twice. -/
example (d e a b : Int) (h : Heap Int Int Int) :
    (computeHessianOf [sqLin 0 1, sqLin 1 2] 2 [0] [a • d + b • e] h).1
      = List.zipWith (fun x y => a • x + b • y) (computeHessianOf [sqLin 0 1, sqLin 1 2] 2 [0] [d] h).1
          (computeHessianOf [sqLin 0 1, sqLin 1 2] 2 [0] [e] h).1 :=
  hessian_linear_in_direction [sqLin 0 1, sqLin 1 2] (by simp [sqLin_tlm]) (by simp [sqLin_hess]) a b 2 [0]
    (by intro c hc; cases List.mem_singleton.1 hc; exact ⟨sqLin 0 1, by simp, .inl (by simp [sqLin])⟩) [d] [e] rfl (.refl h) (.refl h)

end Pyadjoint
