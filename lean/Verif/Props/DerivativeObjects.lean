import Verif.Model.DerivativeObjects
import Verif.Props.Aliasing
import Verif.Proofs.Engine
import Verif.Proofs.SecondOrder

/-!
# Derivatives and directions belong to the caller (C76)

`Ideal` is the machine one has in mind: the values on the tape, and next to it lists of values, the directions and the
results, that only the caller changes.
-/

namespace Pyadjoint

variable {V T A K : Type*}

/-! ## Changing fields that an operation does not read -/

section Over

variable (F : BV → Var V T A → Var V T A)

/-- Changing every variable. -/
def mapVars (h : Heap V T A) : Heap V T A := fun v => F v (h v)

variable {F}

theorem update_mapVars (h : Heap V T A) (w : BV) (x : Var V T A) :
    Function.update (mapVars F h) w (F w x) = mapVars F (Function.update h w x) := by
  funext v
  by_cases hv : v = w
  · subst hv; simp [mapVars]
  · simp [mapVars, hv]

theorem markAll_mapVars (hF : ∀ v x b, F v { x with marked := b } = { F v x with marked := b }) (ns : List BV) (b : Bool)
    (h : Heap V T A) : markAll ns b (mapVars F h) = mapVars F (markAll ns b h) := by
  unfold markAll
  induction ns generalizing h with
  | nil => rfl
  | cons n ns ih =>
    simp only [List.foldl_cons]
    rw [← ih, ← update_mapVars, hF]
    rfl

theorem markControls_mapVars (hF : ∀ v x b, F v { x with isControl := b } = { F v x with isControl := b }) (cs : List BV)
    (b : Bool) (h : Heap V T A) : markControls cs b (mapVars F h) = mapVars F (markControls cs b h) := by
  unfold markControls
  induction cs generalizing h with
  | nil => rfl
  | cons n ns ih =>
    simp only [List.foldl_cons]
    rw [← ih, ← update_mapVars, hF]
    rfl

theorem relevant_mapVars (hF : ∀ v x, (F v x).marked = x.marked) (m : Bool) (l : List BV) (h : Heap V T A) :
    relevant (mapVars F h) m l = relevant h m l := by
  unfold relevant
  congr 1
  funext p
  simp [mapVars, hF]

theorem saved_mapVars (h1 : ∀ v x, (F v x).output = x.output) (h2 : ∀ v x, (F v x).ckpt = x.ckpt) (h : Heap V T A) :
    saved (mapVars F h) = saved h := by
  funext v
  simp [saved, mapVars, h1, h2]

theorem foldl_mapVars {β : Type*} (g : Heap V T A → β → Heap V T A) (hg : ∀ h b, g (mapVars F h) b = mapVars F (g h b))
    (l : List β) (h : Heap V T A) : l.foldl g (mapVars F h) = mapVars F (l.foldl g h) := by
  induction l generalizing h with
  | nil => rfl
  | cons b l ih => simp only [List.foldl_cons]; rw [hg, ih]

/-- The change leaves everything alone but the three derivative values. -/
structure KeepsValues (F : BV → Var V T A → Var V T A) : Prop where
  output : ∀ v x, (F v x).output = x.output
  ckpt : ∀ v x, (F v x).ckpt = x.ckpt
  marked : ∀ v x, (F v x).marked = x.marked
  isControl : ∀ v x, (F v x).isControl = x.isControl
  setMarked : ∀ v x b, F v { x with marked := b } = { F v x with marked := b }
  setControl : ∀ v x b, F v { x with isControl := b } = { F v x with isControl := b }
  setCkpt : ∀ v x c, F v { x with ckpt := c } = { F v x with ckpt := c }

theorem setCkpt_mapVars (k : KeepsValues F) (h : Heap V T A) (v : BV) (c : Option V) :
    setCkpt (mapVars F h) v c = mapVars F (setCkpt h v c) := by
  unfold setCkpt
  have e : (mapVars F h v).isControl = (h v).isControl := k.isControl _ _
  rw [e]
  by_cases hc : (h v).isControl = true
  · rw [if_pos hc, if_pos hc]
  · rw [if_neg hc, if_neg hc, ← update_mapVars, k.setCkpt]
    rfl

theorem recomputeBlock_mapVars (k : KeepsValues F) (b : Block V T A) (h : Heap V T A) :
    b.recompute false (mapVars F h) = mapVars F (b.recompute false h) := by
  unfold Block.recompute
  have e : (b.outs.any fun o => (mapVars F h o).isControl) = b.outs.any fun o => (h o).isControl := by
    congr 1; funext o; exact k.isControl _ _
  dsimp only
  rw [e, relevant_mapVars k.marked, saved_mapVars k.output k.ckpt]
  split
  · rfl
  · split
    · rfl
    · apply foldl_mapVars
      intro h' p
      cases b.recomputeC (b.deps.map (saved h)) p.2 with
      | none => rfl
      | some c => exact setCkpt_mapVars k h' p.1 _

theorem rfEval_mapVars (k : KeepsValues F) (bs : Blocks V T A) (cs : List BV) (xs : List V) (h : Heap V T A) :
    rfEval bs cs xs (mapVars F h) = mapVars F (rfEval bs cs xs h) := by
  unfold rfEval updateControls recompute
  dsimp only
  rw [foldl_mapVars _ (fun h' (p : BV × V) => setCkpt_mapVars k h' p.1 _), markControls_mapVars k.setControl,
    foldl_mapVars _ (fun h' b => recomputeBlock_mapVars k b h'), markControls_mapVars k.setControl]

theorem evaluateAdj_mapVars [Add A] (k : KeepsValues F) (h1 : ∀ v x, (F v x).adj = x.adj)
    (h2 : ∀ v x a, F v { x with adj := a } = { F v x with adj := a }) (bs : Blocks V T A) (m : Bool) (h : Heap V T A) :
    evaluateAdj bs m (mapVars F h) = mapVars F (evaluateAdj bs m h) := by
  unfold evaluateAdj
  apply foldl_mapVars
  intro h b
  unfold Block.evaluateAdj
  have e : (b.outs.map fun o => (mapVars F h o).adj) = b.outs.map fun o => (h o).adj := by
    congr 1; funext o; exact h1 _ _
  dsimp only
  rw [e, relevant_mapVars k.marked, saved_mapVars k.output k.ckpt]
  split
  · rfl
  · split
    · rfl
    · apply foldl_mapVars
      intro h' p
      cases b.adjC (b.deps.map (saved h)) (b.outs.map fun o => (h o).adj) p.2 with
      | none => rfl
      | some c =>
        unfold addAdj? addAdj
        dsimp only
        rw [← update_mapVars, h2]
        have : (mapVars F h' p.1).adj = (h' p.1).adj := h1 _ _
        rw [this]
        rfl

theorem evaluateTlm_mapVars [Add T] (k : KeepsValues F) (h1 : ∀ v x, (F v x).tlm = x.tlm)
    (h2 : ∀ v x a, F v { x with tlm := a } = { F v x with tlm := a }) (bs : Blocks V T A) (m : Bool) (h : Heap V T A) :
    evaluateTlm bs m (mapVars F h) = mapVars F (evaluateTlm bs m h) := by
  unfold evaluateTlm
  apply foldl_mapVars
  intro h b
  unfold Block.evaluateTlm
  have e : (b.deps.map fun o => (mapVars F h o).tlm) = b.deps.map fun o => (h o).tlm := by
    congr 1; funext o; exact h1 _ _
  dsimp only
  rw [e, relevant_mapVars k.marked, saved_mapVars k.output k.ckpt]
  split
  · rfl
  · split
    · rfl
    · apply foldl_mapVars
      intro h' p
      cases b.tlmC (b.deps.map (saved h)) (b.deps.map fun o => (h o).tlm) p.2 with
      | none => rfl
      | some c =>
        unfold addTlm? addTlm
        dsimp only
        rw [← update_mapVars, h2]
        have : (mapVars F h' p.1).tlm = (h' p.1).tlm := h1 _ _
        rw [this]
        rfl

theorem foldl_mapVars' {β : Type*} (g : Heap V T A → β → Heap V T A) (l : List β)
    (hg : ∀ b ∈ l, ∀ h, g (mapVars F h) b = mapVars F (g h b))
    (h : Heap V T A) : l.foldl g (mapVars F h) = mapVars F (l.foldl g h) := by
  induction l generalizing h with
  | nil => rfl
  | cons b l ih =>
    simp only [List.foldl_cons]
    rw [hg b (by simp), ih fun b' hb' => hg b' (by simp [hb'])]

theorem evaluateHessian_mapVars [Add A] (k : KeepsValues F) (h1 : ∀ v x, (F v x).hess = x.hess)
    (h2 : ∀ v x a, F v { x with hess := a } = { F v x with hess := a }) (h3 : ∀ v x, (F v x).tlm = x.tlm)
    (bs : Blocks V T A) (h4 : ∀ b ∈ bs, ∀ o ∈ b.outs, ∀ x, (F o x).adj = x.adj) (m : Bool) (h : Heap V T A) :
    evaluateHessian bs m (mapVars F h) = mapVars F (evaluateHessian bs m h) := by
  unfold evaluateHessian
  apply foldl_mapVars'
  intro b hb h
  unfold Block.evaluateHessian
  have e : (b.outs.map fun o => (mapVars F h o).hess) = b.outs.map fun o => (h o).hess := by
    congr 1; funext o; exact h1 _ _
  have e' : (b.outs.map fun o => (mapVars F h o).adj) = b.outs.map fun o => (h o).adj :=
    List.map_congr_left fun o ho => h4 b (List.mem_reverse.1 hb) o ho _
  have e'' : (fun q : BV × Nat => (q.2, (mapVars F h q.1).tlm)) = fun q => (q.2, (h q.1).tlm) := by
    funext q; exact congrArg _ (h3 _ _)
  dsimp only
  rw [e, e', e'', relevant_mapVars k.marked, saved_mapVars k.output k.ckpt]
  split
  · rfl
  · split
    · rfl
    · apply foldl_mapVars
      intro h' p
      cases b.hessC (b.deps.map (saved h)) (b.outs.map fun o => (h o).hess) (b.outs.map fun o => (h o).adj) p.2
          ((relevant h m b.deps).map fun q => (q.2, (h q.1).tlm)) with
      | none => rfl
      | some c =>
        unfold addHess? addHess
        dsimp only
        rw [← update_mapVars, h2]
        have : (mapVars F h' p.1).hess = (h' p.1).hess := h1 _ _
        rw [this]
        rfl

theorem seedTlm_mapVars (h2 : ∀ v x a, F v { x with tlm := a } = { F v x with tlm := a }) (cs : List BV) (ds : List T)
    (h : Heap V T A) : seedTlm cs ds (mapVars F h) = mapVars F (seedTlm cs ds h) := by
  unfold seedTlm
  apply foldl_mapVars
  intro h p
  rw [← update_mapVars, h2]
  rfl

end Over

/-! ## Derivative values that are reset before they are read -/

section Agree

open Classical in
/-- Other tangent values where `P`, other adjoint values where `Q`, other Hessian values where `R`. -/
noncomputable def over (P Q R : BV → Prop) (t : BV → Option T) (a g : BV → Option A) (v : BV) (z : Var V T A) : Var V T A :=
  { z with
    tlm := if P v then t v else z.tlm
    adj := if Q v then a v else z.adj
    hess := if R v then g v else z.hess }

theorem over_keeps (P Q R : BV → Prop) (t : BV → Option T) (a g : BV → Option A) :
    KeepsValues (over (V := V) P Q R t a g) :=
  ⟨fun _ _ => rfl, fun _ _ => rfl, fun _ _ => rfl, fun _ _ => rfl, fun _ _ _ => rfl, fun _ _ _ => rfl, fun _ _ _ => rfl⟩

/-- The variable is on the tape and not the result of a block of it. -/
def IsInput (bs : Blocks V T A) (v : BV) : Prop := OnTape bs v ∧ ∀ b ∈ bs, v ∉ b.outs

/-- The heaps differ at most in tangent and Hessian values of variables on the tape, and adjoint values of its inputs. -/
def Agree (bs : Blocks V T A) (x y : Heap V T A) : Prop :=
  ∃ t a g, x = mapVars (over (OnTape bs) (IsInput bs) (OnTape bs) t a g) y

theorem Agree.refl (bs : Blocks V T A) (x : Heap V T A) : Agree bs x x := by
  refine ⟨fun v => (x v).tlm, fun v => (x v).adj, fun v => (x v).hess, ?_⟩
  funext v
  simp [mapVars, over]

theorem Agree.saved {bs : Blocks V T A} {x y : Heap V T A} (h : Agree bs x y) : saved x = Pyadjoint.saved y := by
  obtain ⟨t, a, g, rfl⟩ := h
  exact saved_mapVars (fun _ _ => rfl) (fun _ _ => rfl) _

theorem Agree.rfEval {bs : Blocks V T A} {x y : Heap V T A} (h : Agree bs x y) (cs : List BV) (xs : List V) :
    Agree bs (rfEval bs cs xs x) (Pyadjoint.rfEval bs cs xs y) := by
  obtain ⟨t, a, g, rfl⟩ := h
  exact ⟨t, a, g, rfEval_mapVars (over_keeps ..) _ _ _ _⟩

theorem Agree.trans {bs : Blocks V T A} {x y z : Heap V T A} (h : Agree bs x y) (h' : Agree bs y z) : Agree bs x z := by
  obtain ⟨t, a, g, rfl⟩ := h
  obtain ⟨t', a', g', rfl⟩ := h'
  refine ⟨t, a, g, ?_⟩
  funext v
  simp only [mapVars, over]
  by_cases h1 : OnTape bs v <;> by_cases h2 : IsInput bs v <;> simp [h1, h2]

theorem reset_adj_over (bs : Blocks V T A) (P Q R : BV → Prop) (hQ : ∀ v, Q v → OnTape bs v) (t : BV → Option T)
    (a g : BV → Option A) (y : Heap V T A) :
    resetVariables bs .adjoint (mapVars (over P Q R t a g) y) =
      mapVars (over P (fun _ => False) R t a g) (resetVariables bs .adjoint y) := by
  funext v
  rw [resetVariables_apply]
  simp only [mapVars]
  rw [resetVariables_apply]
  by_cases h1 : OnTape bs v
  · simp [h1, over, Var.reset]
  · have h2 : ¬ Q v := fun h => h1 (hQ v h)
    simp [h1, h2, over]

theorem reset_tlm_over (bs : Blocks V T A) (P Q R : BV → Prop) (hP : ∀ v, P v → OnTape bs v) (t : BV → Option T)
    (a g : BV → Option A) (y : Heap V T A) :
    resetVariables bs .tlm (mapVars (over P Q R t a g) y) =
      mapVars (over (fun _ => False) Q R t a g) (resetVariables bs .tlm y) := by
  funext v
  rw [resetVariables_apply]
  simp only [mapVars]
  rw [resetVariables_apply]
  by_cases h1 : OnTape bs v
  · simp [h1, over, Var.reset]
  · have h2 : ¬ P v := fun h => h1 (hP v h)
    simp [h1, h2, over]

theorem reset_hess_over (bs : Blocks V T A) (P Q R : BV → Prop) (hR : ∀ v, R v → OnTape bs v) (t : BV → Option T)
    (a g : BV → Option A) (y : Heap V T A) :
    resetVariables bs .hessian (mapVars (over P Q R t a g) y) =
      mapVars (over P Q (fun _ => False) t a g) (resetVariables bs .hessian y) := by
  funext v
  rw [resetVariables_apply]
  simp only [mapVars]
  rw [resetVariables_apply]
  by_cases h1 : OnTape bs v
  · simp [h1, over, Var.reset]
  · have h2 : ¬ R v := fun h => h1 (hR v h)
    simp [h1, h2, over]

/-- The gradient does not depend on what `Agree` leaves open. -/
theorem Agree.gradient [Add A] [Zero A] {bs : Blocks V T A} {x y : Heap V T A} (h : Agree bs x y) (J : BV) (cs : List BV)
    (a : A) : (computeGradient bs J cs a x).1 = (computeGradient bs J cs a y).1 ∧
      Agree bs (computeGradient bs J cs a x).2 (computeGradient bs J cs a y).2 := by
  obtain ⟨t, a', g, rfl⟩ := h
  have key : computeGradientState bs J cs a (mapVars (over (OnTape bs) (IsInput bs) (OnTape bs) t a' g) y) =
      mapVars (over (OnTape bs) (fun _ => False) (OnTape bs) t a' g) (computeGradientState bs J cs a y) := by
    unfold computeGradientState markedAdjoint
    dsimp only
    rw [reset_adj_over bs _ _ _ (fun v hv => hv.1)]
    have k := over_keeps (V := V) (OnTape bs) (fun _ => False) (OnTape bs) t a' g
    have hset : ∀ (v : BV) (x : Var V T A) (b : Option A),
        over (OnTape bs) (fun _ => False) (OnTape bs) t a' g v { x with adj := b } =
          { over (OnTape bs) (fun _ => False) (OnTape bs) t a' g v x with adj := b } := by
      intro v x b; simp [over]
    have e : ∀ z : Heap V T A, Function.update (mapVars (over (OnTape bs) (fun _ => False) (OnTape bs) t a' g) z) J
        { mapVars (over (OnTape bs) (fun _ => False) (OnTape bs) t a' g) z J with adj := some a } =
        mapVars (over (OnTape bs) (fun _ => False) (OnTape bs) t a' g)
          (Function.update z J { z J with adj := some a }) := by
      intro z
      rw [← update_mapVars, hset]
      rfl
    rw [e, markAll_mapVars k.setMarked, markControls_mapVars k.setControl,
      evaluateAdj_mapVars k (fun v x => by simp [over]) hset, markControls_mapVars k.setControl,
      markAll_mapVars k.setMarked]
  refine ⟨?_, ?_⟩
  · unfold computeGradient
    dsimp only
    rw [key]
    apply List.map_congr_left
    intro c _
    simp [getDerivative, mapVars, over]
  · refine ⟨t, fun v => (computeGradientState bs J cs a y v).adj, g, ?_⟩
    unfold computeGradient
    dsimp only
    rw [key]
    funext v
    simp [mapVars, over]

/-- The Hessian does not depend on what `Agree` leaves open. -/
theorem Agree.hessian [Add T] [Add A] [Zero A] {bs : Blocks V T A} {x y : Heap V T A} (h : Agree bs x y) (J : BV)
    (cs : List BV) (ds : List T) : (computeHessianOf bs J cs ds x).1 = (computeHessianOf bs J cs ds y).1 ∧
      Agree bs (computeHessianOf bs J cs ds x).2 (computeHessianOf bs J cs ds y).2 := by
  obtain ⟨t, a, g, rfl⟩ := h
  have k := over_keeps (V := V) (fun _ => False) (IsInput bs) (fun _ => False) t a g
  have hset : ∀ (v : BV) (x : Var V T A) (b : Option A),
      over (fun _ => False) (IsInput bs) (fun _ => False) t a g v { x with hess := b } =
        { over (fun _ => False) (IsInput bs) (fun _ => False) t a g v x with hess := b } := by
    intro v x b; simp [over]
  have hset' : ∀ (v : BV) (x : Var V T A) (b : Option T),
      over (fun _ => False) (IsInput bs) (fun _ => False) t a g v { x with tlm := b } =
        { over (fun _ => False) (IsInput bs) (fun _ => False) t a g v x with tlm := b } := by
    intro v x b; simp [over]
  have e : ∀ z : Heap V T A, Function.update (mapVars (over (fun _ => False) (IsInput bs) (fun _ => False) t a g) z) J
      { mapVars (over (fun _ => False) (IsInput bs) (fun _ => False) t a g) z J with hess := some 0 } =
      mapVars (over (fun _ => False) (IsInput bs) (fun _ => False) t a g)
        (Function.update z J { z J with hess := some 0 }) := by
    intro z
    rw [← update_mapVars, hset]
    rfl
  have key : (computeHessianOf bs J cs ds (mapVars (over (OnTape bs) (IsInput bs) (OnTape bs) t a g) y)).2 =
      mapVars (over (fun _ => False) (IsInput bs) (fun _ => False) t a g) (computeHessianOf bs J cs ds y).2 := by
    unfold computeHessianOf
    dsimp only
    rw [reset_tlm_over bs _ _ _ (fun v hv => hv), reset_hess_over bs _ _ _ (fun v hv => hv), seedTlm_mapVars hset',
      markAll_mapVars k.setMarked, evaluateTlm_mapVars k (fun v x => by simp [over]) hset', markAll_mapVars k.setMarked,
      e, markAll_mapVars k.setMarked,
      evaluateHessian_mapVars k (fun v x => by simp [over]) hset (fun v x => by simp [over]) bs
        (fun b hb o ho x => by
          have : ¬ IsInput bs o := fun h => h.2 b hb ho
          simp [over, this]), markAll_mapVars k.setMarked]
  refine ⟨?_, ?_⟩
  · have e1 : ∀ z : Heap V T A, (computeHessianOf bs J cs ds z).1 = cs.map (getHessian (computeHessianOf bs J cs ds z).2) :=
      fun _ => rfl
    rw [e1, e1, key]
    apply List.map_congr_left
    intro c _
    simp [getHessian, mapVars, over]
  · rw [key]
    refine ⟨fun v => ((computeHessianOf bs J cs ds y).2 v).tlm, a, fun v => ((computeHessianOf bs J cs ds y).2 v).hess, ?_⟩
    funext v
    simp [mapVars, over]

end Agree

/-! ## The operations on objects -/

namespace Objs

variable [DecidableEq K]

theorem give_ref_of_ne [Add A] (inplace : Bool) (s : Objs K A) (k l : K) (r : Option A) (h : Option Nat) (hl : l ≠ k) :
    (s.give inplace k r h).ref l = s.ref l := by
  unfold give
  cases r with
  | none => rfl
  | some x =>
    cases h with
    | none => exact add_ref_of_ne _ _ _ _ hl
    | some a => exact add_ref_of_ne _ _ _ _ hl

theorem loop_ref_of_ne [Add A] (inplace : Bool) (c : List (Option A) → Nat → Option A) (src : Nat → Option Nat)
    (ins : List (Option Nat)) (ps : List (K × Nat)) (s : Objs K A) (l : K) (hl : ∀ p ∈ ps, l ≠ p.1) :
    (s.loop inplace c src ins ps).ref l = s.ref l := by
  unfold loop
  induction ps generalizing s with
  | nil => rfl
  | cons p ps ih =>
    rw [List.foldl_cons, ih _ fun q hq => hl q (by simp [hq])]
    exact give_ref_of_ne _ _ _ _ _ _ (hl p (by simp))

theorem give_next [Add A] (inplace : Bool) (s : Objs K A) (k : K) (r : Option A) (h : Option Nat) :
    s.next ≤ (s.give inplace k r h).next := by
  unfold give
  cases r with
  | none => exact Nat.le_refl _
  | some x =>
    cases h with
    | none => exact Nat.le_trans (Nat.le_succ _) (add_next (s.alloc x).2 _ _)
    | some a => exact add_next s _ _

theorem loop_next [Add A] (inplace : Bool) (c : List (Option A) → Nat → Option A) (src : Nat → Option Nat)
    (ins : List (Option Nat)) (ps : List (K × Nat)) (s : Objs K A) : s.next ≤ (s.loop inplace c src ins ps).next := by
  unfold loop
  induction ps generalizing s with
  | nil => exact Nat.le_refl _
  | cons p ps ih => exact Nat.le_trans (give_next ..) (ih _)

theorem clear_ref (ks : List K) (s : Objs K A) (k : K) : (s.clear ks).ref k = if k ∈ ks then none else s.ref k := by
  unfold clear
  dsimp only
  generalize s.ref = r
  induction ks generalizing r with
  | nil => simp
  | cons l ks ih =>
    rw [List.foldl_cons, ih]
    by_cases h1 : k ∈ ks
    · simp [h1]
    · by_cases h2 : k = l
      · subst h2; simp
      · simp [h1, h2]

theorem clear_sep (inplace : Bool) (ks : List K) (s : Objs K A) (hs : s.Sep inplace) : (s.clear ks).Sep inplace := by
  have key : ∀ k a, (s.clear ks).ref k = some a → s.ref k = some a := by
    intro k a h
    rw [clear_ref] at h
    split at h
    · cases h
    · exact h
  exact ⟨fun k a h => hs.bounded k a (key k a h), fun hi k l a h h' => hs.inj hi k l a (key k a h) (key l a h')⟩

theorem setNew_ref (s : Objs K A) (k : K) (x : A) (l : K) :
    (s.setNew k x).ref l = if l = k then some s.next else s.ref l := by
  unfold setNew setRef alloc
  by_cases h : l = k
  · subst h; simp
  · simp [h]

theorem setNew_sep (inplace : Bool) (s : Objs K A) (k : K) (x : A) (hs : s.Sep inplace) : (s.setNew k x).Sep inplace := by
  refine ⟨fun l a h => ?_, fun hi l l' a h h' => ?_⟩
  · rw [setNew_ref] at h
    have hn : (s.setNew k x).next = s.next + 1 := rfl
    rw [hn]
    split at h
    · cases h; exact Nat.lt_succ_self _
    · exact Nat.lt_succ_of_lt (hs.bounded l a h)
  · rw [setNew_ref] at h h'
    by_cases h1 : l = k <;> by_cases h2 : l' = k
    · rw [h1, h2]
    · rw [if_pos h1] at h
      rw [if_neg h2] at h'
      cases h
      exact absurd (hs.bounded _ _ h') (Nat.lt_irrefl _)
    · rw [if_neg h1] at h
      rw [if_pos h2] at h'
      cases h'
      exact absurd (hs.bounded _ _ h) (Nat.lt_irrefl _)
    · rw [if_neg h1] at h
      rw [if_neg h2] at h'
      exact hs.inj hi l l' a h h'

theorem setNew_store (s : Objs K A) (k : K) (x : A) (a : Nat) (ha : a < s.next) : (s.setNew k x).store a = s.store a := by
  unfold setNew setRef alloc
  dsimp only
  rw [Function.update_of_ne (by omega)]

theorem setNew_val (inplace : Bool) (s : Objs K A) (hs : s.Sep inplace) (k : K) (x : A) :
    (s.setNew k x).val = Function.update s.val k (some x) := by
  funext l
  unfold val
  rw [setNew_ref]
  by_cases h : l = k
  · subst h
    simp [setNew, setRef, alloc]
  · rw [if_neg h, Function.update_of_ne h]
    cases hr : s.ref l with
    | none => rfl
    | some a =>
      simp only [Option.map_some]
      rw [setNew_store _ _ _ _ (hs.bounded l a hr)]

end Objs

theorem mem_tapeVars (bs : Blocks V T A) (v : BV) : v ∈ tapeVars bs ↔ OnTape bs v := by
  unfold tapeVars OnTape
  simp [List.mem_flatMap]

namespace RState

theorem abs_onBase (s : RState V T A) (g : Heap V T A → Heap V T A)
    (hg : ∀ F : BV → Var V T A → Var V T A, KeepsValues F → ∀ h, g (mapVars F h) = mapVars F (g h)) :
    (s.onBase g).abs = g s.abs := by
  have k : KeepsValues fun v (x : Var V T A) =>
      { x with tlm := s.tan.val v, adj := s.cot.val (false, v), hess := s.cot.val (true, v) } :=
    ⟨fun _ _ => rfl, fun _ _ => rfl, fun _ _ => rfl, fun _ _ => rfl, fun _ _ _ => rfl, fun _ _ _ => rfl, fun _ _ _ => rfl⟩
  exact (hg _ k s.base).symm

theorem abs_markAll (s : RState V T A) (ns : List BV) (b : Bool) : (s.onBase (markAll ns b)).abs = markAll ns b s.abs :=
  abs_onBase s _ fun _ k h => markAll_mapVars k.setMarked ns b h

theorem abs_markControls (s : RState V T A) (cs : List BV) (b : Bool) :
    (s.onBase (markControls cs b)).abs = markControls cs b s.abs :=
  abs_onBase s _ fun _ k h => markControls_mapVars k.setControl cs b h

theorem abs_rfEval (s : RState V T A) (bs : Blocks V T A) (cs : List BV) (xs : List V) :
    (s.onBase (rfEval bs cs xs)).abs = rfEval bs cs xs s.abs :=
  abs_onBase s _ fun _ k h => rfEval_mapVars k bs cs xs h

theorem abs_clear_adj (s : RState V T A) (bs : Blocks V T A) :
    ({ s with cot := s.cot.clear ((tapeVars bs).map fun v => (false, v)) } : RState V T A).abs =
      resetVariables bs .adjoint s.abs := by
  funext v
  rw [resetVariables_apply]
  simp only [abs, Objs.val, Objs.clear_ref]
  have h1 : (((false, v) : Bool × BV) ∈ (tapeVars bs).map fun v => (false, v)) ↔ OnTape bs v := by
    rw [← mem_tapeVars]; simp
  have h2 : ¬ (((true, v) : Bool × BV) ∈ (tapeVars bs).map fun v => (false, v)) := by simp
  by_cases h : OnTape bs v
  · simp [h1, h2, h, Var.reset, Objs.clear]
  · simp [h1, h2, h, Objs.clear]

theorem abs_clear_hess (s : RState V T A) (bs : Blocks V T A) :
    ({ s with cot := s.cot.clear ((tapeVars bs).map fun v => (true, v)) } : RState V T A).abs =
      resetVariables bs .hessian s.abs := by
  funext v
  rw [resetVariables_apply]
  simp only [abs, Objs.val, Objs.clear_ref]
  have h1 : (((true, v) : Bool × BV) ∈ (tapeVars bs).map fun v => (true, v)) ↔ OnTape bs v := by
    rw [← mem_tapeVars]; simp
  have h2 : ¬ (((false, v) : Bool × BV) ∈ (tapeVars bs).map fun v => (true, v)) := by simp
  by_cases h : OnTape bs v
  · simp [h1, h2, h, Var.reset, Objs.clear]
  · simp [h1, h2, h, Objs.clear]

theorem abs_clear_tlm (s : RState V T A) (bs : Blocks V T A) :
    ({ s with tan := s.tan.clear (tapeVars bs) } : RState V T A).abs = resetVariables bs .tlm s.abs := by
  funext v
  rw [resetVariables_apply]
  simp only [abs, Objs.val, Objs.clear_ref]
  have h1 := mem_tapeVars bs v
  by_cases h : OnTape bs v
  · simp [h1, h, Var.reset, Objs.clear]
  · simp [h1, h, Objs.clear]

theorem abs_setNew_adj (inplace : Bool) (s : RState V T A) (hs : s.cot.Sep inplace) (J : BV) (a : A) :
    ({ s with cot := s.cot.setNew (false, J) a } : RState V T A).abs =
      Function.update s.abs J { s.abs J with adj := some a } := by
  funext v
  simp only [abs, Objs.setNew_val inplace _ hs]
  by_cases h : v = J
  · subst h; simp
  · simp [h]
    rfl

theorem abs_setNew_hess (inplace : Bool) (s : RState V T A) (hs : s.cot.Sep inplace) (J : BV) (a : A) :
    ({ s with cot := s.cot.setNew (true, J) a } : RState V T A).abs =
      Function.update s.abs J { s.abs J with hess := some a } := by
  funext v
  simp only [abs, Objs.setNew_val inplace _ hs]
  by_cases h : v = J
  · subst h; simp
  · simp [h]
    rfl

/-- What a sweep does to objects: those of attributes it is not concerned with, and those of no attribute, stay. -/
theorem adj_sweep [Add A] (bs : List (RBlock V T A)) (hb : ∀ b ∈ bs, b.Ok true)
    (hself : ∀ b ∈ bs, ∀ d ∈ b.block.deps, d ∉ b.block.outs) (m : Bool) (s : RState V T A) (hs : s.cot.Sep true) :
    let s' := RState.evaluateAdj true bs m s
    s'.abs = Pyadjoint.evaluateAdj (bs.map RBlock.block) m s.abs ∧ s'.cot.Sep true ∧ s'.tan = s.tan ∧
    ∀ o, o < s.cot.next → (∀ k, s.cot.ref k = some o → k.1 = true) →
      o < s'.cot.next ∧ s'.cot.store o = s.cot.store o ∧ ∀ k, s'.cot.ref k = some o → s.cot.ref k = some o := by
  intro s'
  have key : ∀ (l : List (RBlock V T A)) (s : RState V T A), (∀ b ∈ l, b ∈ bs) → s.cot.Sep true →
      (∀ v, (l.foldl (fun s b => evaluateAdjBlock true b m s) s).cot.ref (true, v) = s.cot.ref (true, v)) ∧
      (∀ a, s.cot.Foreign true a → (l.foldl (fun s b => evaluateAdjBlock true b m s) s).cot.Foreign true a) ∧
      s.cot.next ≤ (l.foldl (fun s b => evaluateAdjBlock true b m s) s).cot.next := by
    intro l
    induction l with
    | nil => intro s _ _; exact ⟨fun _ => rfl, fun _ h => h, Nat.le_refl _⟩
    | cons b l ih =>
      intro s hl hs
      have hbm := hl b (List.mem_cons_self ..)
      obtain ⟨h1, h2, h3, h4⟩ := evaluateAdjBlock_spec b (hb b hbm) (hself b hbm) m s hs
      obtain ⟨i1, i2, i3⟩ := ih _ (fun b' hb' => hl b' (List.mem_cons_of_mem _ hb')) h2
      refine ⟨fun v => (i1 v).trans ?_, fun a ha => i2 a (h4 a ha).1, Nat.le_trans ?_ i3⟩
      · unfold evaluateAdjBlock
        dsimp only
        split
        · rfl
        · split
          · rfl
          · apply Objs.loop_ref_of_ne
            intro p hp
            obtain ⟨q, _, rfl⟩ := List.mem_map.1 hp
            simp
      · unfold evaluateAdjBlock
        dsimp only
        split
        · exact Nat.le_refl _
        · split
          · exact Nat.le_refl _
          · exact Objs.loop_next _ _ _ _ _ _
  obtain ⟨c1, c2, c3, c4⟩ := accumulation_refines_partial bs hb hself m s hs
  obtain ⟨k1, k2, k3⟩ := key bs.reverse s (fun b hb => List.mem_reverse.1 hb) hs
  refine ⟨c1, c2, c3, fun o ho hk => ⟨Nat.lt_of_lt_of_le ho k3, ?_⟩⟩
  by_cases hex : ∃ v, s.cot.ref (true, v) = some o
  · obtain ⟨v, hv⟩ := hex
    have hv' : s'.cot.ref (true, v) = some o := (k1 v).trans hv
    refine ⟨?_, fun k hk' => ?_⟩
    · have e : (s'.abs v).hess = (s.abs v).hess := by
        have : (s'.abs v).hess = (Pyadjoint.evaluateAdj (bs.map RBlock.block) m s.abs v).hess := congrArg (fun h => (h v).hess) c1
        rw [this]
        exact evaluateAdj_hess _ _ _ _
      have e1 : (s'.abs v).hess = some (s'.cot.store o) := by simp [abs, Objs.val, hv']
      have e2 : (s.abs v).hess = some (s.cot.store o) := by simp [abs, Objs.val, hv]
      rw [e1, e2] at e
      exact Option.some.inj e
    · rw [c2.inj rfl k (true, v) o hk' hv']
      exact hv
  · have hf : s.cot.Foreign true o := ⟨ho, fun _ k hk' => by
      have := hk k hk'
      exact hex ⟨k.2, by rw [← this]; exact hk'⟩⟩
    exact ⟨c4 o hf, fun k hk' => absurd hk' ((k2 o hf).2 rfl k)⟩

/-- The same for the Hessian sweep. -/
theorem hess_sweep [Add A] (bs : List (RBlock V T A)) (hb : ∀ b ∈ bs, b.Ok true)
    (hself : ∀ b ∈ bs, ∀ d ∈ b.block.deps, d ∉ b.block.outs) (m : Bool) (s : RState V T A) (hs : s.cot.Sep true) :
    let s' := RState.evaluateHessian true bs m s
    s'.abs = Pyadjoint.evaluateHessian (bs.map RBlock.block) m s.abs ∧ s'.cot.Sep true ∧ s'.tan = s.tan ∧
    ∀ o, o < s.cot.next → (∀ k, s.cot.ref k = some o → k.1 = false) →
      o < s'.cot.next ∧ s'.cot.store o = s.cot.store o ∧ ∀ k, s'.cot.ref k = some o → s.cot.ref k = some o := by
  intro s'
  have key : ∀ (l : List (RBlock V T A)) (s : RState V T A), (∀ b ∈ l, b ∈ bs) → s.cot.Sep true →
      (∀ v, (l.foldl (fun s b => evaluateHessianBlock true b m s) s).cot.ref (false, v) = s.cot.ref (false, v)) ∧
      (∀ a, s.cot.Foreign true a → (l.foldl (fun s b => evaluateHessianBlock true b m s) s).cot.Foreign true a) ∧
      s.cot.next ≤ (l.foldl (fun s b => evaluateHessianBlock true b m s) s).cot.next := by
    intro l
    induction l with
    | nil => intro s _ _; exact ⟨fun _ => rfl, fun _ h => h, Nat.le_refl _⟩
    | cons b l ih =>
      intro s hl hs
      have hbm := hl b (List.mem_cons_self ..)
      obtain ⟨h1, h2, h3, h4⟩ := evaluateHessianBlock_spec b (hb b hbm) (hself b hbm) m s hs
      obtain ⟨i1, i2, i3⟩ := ih _ (fun b' hb' => hl b' (List.mem_cons_of_mem _ hb')) h2
      refine ⟨fun v => (i1 v).trans ?_, fun a ha => i2 a (h4 a ha).1, Nat.le_trans ?_ i3⟩
      · unfold evaluateHessianBlock
        dsimp only
        split
        · rfl
        · split
          · rfl
          · apply Objs.loop_ref_of_ne
            intro p hp
            obtain ⟨q, _, rfl⟩ := List.mem_map.1 hp
            simp
      · unfold evaluateHessianBlock
        dsimp only
        split
        · exact Nat.le_refl _
        · split
          · exact Nat.le_refl _
          · exact Objs.loop_next _ _ _ _ _ _
  obtain ⟨c1, c2, c3, c4⟩ := hessian_accumulation_refines_partial bs hb hself m s hs
  obtain ⟨k1, k2, k3⟩ := key bs.reverse s (fun b hb => List.mem_reverse.1 hb) hs
  refine ⟨c1, c2, c3, fun o ho hk => ⟨Nat.lt_of_lt_of_le ho k3, ?_⟩⟩
  by_cases hex : ∃ v, s.cot.ref (false, v) = some o
  · obtain ⟨v, hv⟩ := hex
    have hv' : s'.cot.ref (false, v) = some o := (k1 v).trans hv
    refine ⟨?_, fun k hk' => ?_⟩
    · have e : (s'.abs v).adj = (s.abs v).adj := by
        have : (s'.abs v).adj = (Pyadjoint.evaluateHessian (bs.map RBlock.block) m s.abs v).adj :=
          congrArg (fun h => (h v).adj) c1
        rw [this]
        obtain ⟨a, ha⟩ := evaluateHessian_frame (bs.map RBlock.block) m s.abs v
        rw [ha]
      have e1 : (s'.abs v).adj = some (s'.cot.store o) := by simp [abs, Objs.val, hv']
      have e2 : (s.abs v).adj = some (s.cot.store o) := by simp [abs, Objs.val, hv]
      rw [e1, e2] at e
      exact Option.some.inj e
    · rw [c2.inj rfl k (false, v) o hk' hv']
      exact hv
  · have hf : s.cot.Foreign true o := ⟨ho, fun _ k hk' => by
      have := hk k hk'
      exact hex ⟨k.2, by rw [← this]; exact hk'⟩⟩
    exact ⟨c4 o hf, fun k hk' => absurd hk' ((k2 o hf).2 rfl k)⟩

/-- The tangent sweep: only attributes of results of blocks change, and no object does. -/
theorem tlm_sweep [Add T] (inplace : Bool) (bs : List (RBlock V T A)) (wf : WF (bs.map RBlock.block))
    (hb : ∀ b ∈ bs, ∀ inputs ins idx k, b.tlmSrc idx = some k → b.block.tlmC inputs ins idx = (ins[k]?).join)
    (m : Bool) (s : RState V T A) (hs : ∀ v a, s.tan.ref v = some a → a < s.tan.next)
    (hnone : ∀ b ∈ bs, ∀ o ∈ b.block.outs, s.tan.ref o = none) :
    let s' := RState.evaluateTlm inplace bs m s
    s'.abs = Pyadjoint.evaluateTlm (bs.map RBlock.block) m s.abs ∧ s'.cot = s.cot ∧
    (∀ v a, s'.tan.ref v = some a → a < s'.tan.next) ∧
    (∀ v, (∀ b ∈ bs, v ∉ b.block.outs) → s'.tan.ref v = s.tan.ref v) ∧ s.tan.next ≤ s'.tan.next ∧
    ∀ a, a < s.tan.next → s'.tan.store a = s.tan.store a := by
  unfold RState.evaluateTlm Pyadjoint.evaluateTlm
  induction bs generalizing s with
  | nil => exact ⟨rfl, rfl, hs, fun _ _ => rfl, Nat.le_refl _, fun _ _ => rfl⟩
  | cons b bs ih =>
    rw [List.map_cons] at wf
    obtain ⟨h1, h2, h3, h4, h5, h6⟩ := evaluateTlmBlock_spec (inplace := inplace) b (hb b (by simp))
      (wf.self b.block (by simp)) (wf.nodup b.block (by simp)) m s hs (hnone b (by simp))
    obtain ⟨p1, p2⟩ := List.pairwise_cons.1 wf.later
    obtain ⟨i1, i2, i3, i4, i5, i6⟩ := ih ⟨fun b' hb' => wf.nodup b' (by simp [hb']), fun b' hb' => wf.self b' (by simp [hb']), p2⟩
      (fun b' hb' => hb b' (by simp [hb'])) (evaluateTlmBlock inplace b m s) h3
      (fun b' hb' o ho => by
        rw [h4 o fun h => (p1 b'.block (List.mem_map_of_mem hb')).2 o h ho]
        exact hnone b' (by simp [hb']) o ho)
    refine ⟨?_, i2.trans h2, i3, fun v hv => ?_, Nat.le_trans h5 i5,
      fun a ha => (i6 a (Nat.lt_of_lt_of_le ha h5)).trans (h6 a ha)⟩
    · simp only [List.foldl_cons, List.map_cons]
      rw [i1, h1]
    · exact (i4 v fun b' hb' => hv b' (by simp [hb'])).trans (h4 v (hv b (by simp)))

/-- `compute_gradient` on objects. -/
theorem gradientState_spec [Add A] [Zero A] (bs : List (RBlock V T A)) (hb : ∀ b ∈ bs, b.Ok true)
    (hself : ∀ b ∈ bs, ∀ d ∈ b.block.deps, d ∉ b.block.outs) (J : BV) (cs : List BV) (a : A) (s : RState V T A)
    (hs : s.cot.Sep true) :
    let s' := s.gradientState true bs J cs a
    s'.abs = computeGradientState (bs.map RBlock.block) J cs a s.abs ∧ s'.cot.Sep true ∧ s'.tan = s.tan ∧
    ∀ o, o < s.cot.next → (∀ k, s.cot.ref k = some o → k.1 = false → OnTape (bs.map RBlock.block) k.2) →
      o < s'.cot.next ∧ s'.cot.store o = s.cot.store o ∧ ∀ k, s'.cot.ref k = some o → k.1 = true ∧ s.cot.ref k = some o := by
  intro s'
  have hc := Objs.clear_sep true ((tapeVars (bs.map RBlock.block)).map fun v => (false, v)) s.cot hs
  have hn := Objs.setNew_sep true _ (false, J) a hc
  obtain ⟨c1, c2, c3, c4⟩ := adj_sweep bs hb hself true
    (((({ s with cot := (s.cot.clear ((tapeVars (bs.map RBlock.block)).map fun v => (false, v))).setNew (false, J) a } :
      RState V T A).onBase (markAll (findRelevantNodes (bs.map RBlock.block) cs) true)).onBase (markControls cs true))) hn
  refine ⟨?_, c2, c3, fun o ho hk => ?_⟩
  · have e := abs_clear_adj s (bs.map RBlock.block)
    have e2 := abs_setNew_adj true
      ({ s with cot := s.cot.clear ((tapeVars (bs.map RBlock.block)).map fun v => (false, v)) } : RState V T A) hc J a
    rw [e] at e2
    rw [abs_markControls, abs_markAll, e2] at c1
    show (RState.onBase _ _).abs = _
    rw [abs_markAll, abs_markControls, c1]
    rfl
  · have hr : ∀ k, ((s.cot.clear ((tapeVars (bs.map RBlock.block)).map fun v => (false, v))).setNew (false, J) a).ref k = some o →
        k.1 = true ∧ s.cot.ref k = some o := by
      intro k hk'
      rw [Objs.setNew_ref] at hk'
      split at hk'
      · have : o = s.cot.next := (Option.some.inj hk').symm
        omega
      · rw [Objs.clear_ref] at hk'
        split at hk'
        · cases hk'
        · rename_i hnm
          refine ⟨?_, hk'⟩
          cases hk1 : k.1 with
          | true => rfl
          | false =>
            exact absurd (List.mem_map.2 ⟨k.2, (mem_tapeVars _ _).2 (hk k hk' hk1), by rw [← hk1]⟩) hnm
    obtain ⟨d1, d2, d3⟩ := c4 o (Nat.lt_succ_of_lt ho) fun k hk' => (hr k hk').1
    exact ⟨d1, d2.trans (Objs.setNew_store _ _ _ _ ho), fun k hk' => hr k (d3 k hk')⟩

theorem seedTlm_abs (cs : List BV) (os : List Nat) (s : RState V T A) :
    (s.seedTlm cs os).abs = Pyadjoint.seedTlm cs (os.map s.tan.store) s.abs ∧
    (s.seedTlm cs os).cot = s.cot ∧ (s.seedTlm cs os).tan.store = s.tan.store ∧ (s.seedTlm cs os).tan.next = s.tan.next ∧
    (∀ v, v ∉ cs → (s.seedTlm cs os).tan.ref v = s.tan.ref v) ∧
    ∀ v a, (s.seedTlm cs os).tan.ref v = some a → a ∈ os ∨ s.tan.ref v = some a := by
  unfold seedTlm Pyadjoint.seedTlm
  induction cs generalizing s os with
  | nil => exact ⟨rfl, rfl, rfl, rfl, fun _ _ => rfl, fun _ _ h => .inr h⟩
  | cons c cs ih =>
    cases os with
    | nil => exact ⟨rfl, rfl, rfl, rfl, fun _ _ => rfl, fun _ _ h => .inr h⟩
    | cons o os =>
      obtain ⟨i1, i2, i3, i4, i5, i6⟩ := ih os { s with tan := s.tan.setRef c o }
      refine ⟨?_, i2, i3, i4, fun v hv => ?_, fun v a h => ?_⟩
      · refine i1.trans ?_
        simp only [List.zip_cons_cons, List.map_cons, List.foldl_cons]
        have : ({ s with tan := s.tan.setRef c o } : RState V T A).abs =
            Function.update s.abs c { s.abs c with tlm := some (s.tan.store o) } := by
          funext v
          by_cases h : v = c
          · subst h; simp [abs, Objs.val, Objs.setRef]
          · simp [abs, Objs.val, Objs.setRef, h]
        rw [this]
        rfl
      · refine (i5 v fun h => hv (by simp [h])).trans ?_
        have : v ≠ c := fun h => hv (by simp [h])
        simp [Objs.setRef, this]
      · rcases i6 v a h with h | h
        · exact .inl (by simp [h])
        · simp only [Objs.setRef] at h
          by_cases hv : v = c
          · subst hv
            simp only [Function.update_self, Option.some.injEq] at h
            exact .inl (by simp [h])
          · rw [Function.update_of_ne hv] at h
            exact .inr h

/-- `compute_hessian` on objects. -/
theorem hessianState_spec [Add T] [Add A] [Zero A] (bs : List (RBlock V T A)) (hb : ∀ b ∈ bs, b.Ok true)
    (wf : WF (bs.map RBlock.block))
    (ht : ∀ b ∈ bs, ∀ inputs ins idx k, b.tlmSrc idx = some k → b.block.tlmC inputs ins idx = (ins[k]?).join)
    (J : BV) (cs : List BV) (hcs : ∀ c ∈ cs, IsInput (bs.map RBlock.block) c) (os : List Nat) (s : RState V T A)
    (hs : s.cot.Sep true) (hst : ∀ v a, s.tan.ref v = some a → a < s.tan.next) (hos : ∀ o ∈ os, o < s.tan.next) :
    let s' := s.hessianState true bs J cs os
    s'.abs = (computeHessianOf (bs.map RBlock.block) J cs (os.map s.tan.store) s.abs).2 ∧ s'.cot.Sep true ∧
    (∀ v a, s'.tan.ref v = some a → a < s'.tan.next) ∧
    (∀ v, ¬ OnTape (bs.map RBlock.block) v → s'.tan.ref v = s.tan.ref v) ∧ s.tan.next ≤ s'.tan.next ∧
    (∀ o, o < s.tan.next → s'.tan.store o = s.tan.store o) ∧
    ∀ o, o < s.cot.next → (∀ k, s.cot.ref k = some o → k.1 = true → OnTape (bs.map RBlock.block) k.2) →
      o < s'.cot.next ∧ s'.cot.store o = s.cot.store o ∧ ∀ k, s'.cot.ref k = some o → k.1 = false ∧ s.cot.ref k = some o := by
  intro s'
  have hself : ∀ b ∈ bs, ∀ d ∈ b.block.deps, d ∉ b.block.outs := fun b hb => wf.self b.block (List.mem_map_of_mem hb)
  -- the resets and the seeds
  have hc := Objs.clear_sep true ((tapeVars (bs.map RBlock.block)).map fun v => (true, v)) s.cot hs
  obtain ⟨e1, e2, e3, e4, e5, e6⟩ := seedTlm_abs cs os
    ({ s with
        tan := s.tan.clear (tapeVars (bs.map RBlock.block))
        cot := s.cot.clear ((tapeVars (bs.map RBlock.block)).map fun v => (true, v)) } : RState V T A)
  have ea : ({ s with
        tan := s.tan.clear (tapeVars (bs.map RBlock.block))
        cot := s.cot.clear ((tapeVars (bs.map RBlock.block)).map fun v => (true, v)) } : RState V T A).abs =
      resetVariables (bs.map RBlock.block) .hessian (resetVariables (bs.map RBlock.block) .tlm s.abs) := by
    have h1 := abs_clear_tlm s (bs.map RBlock.block)
    have h2 := abs_clear_hess ({ s with tan := s.tan.clear (tapeVars (bs.map RBlock.block)) } : RState V T A) (bs.map RBlock.block)
    rw [h1] at h2
    exact h2
  rw [ea] at e1
  have hclr : ∀ v a, (s.tan.clear (tapeVars (bs.map RBlock.block))).ref v = some a →
      s.tan.ref v = some a ∧ ¬ OnTape (bs.map RBlock.block) v := by
    intro v a h
    rw [Objs.clear_ref] at h
    split at h
    · cases h
    · rename_i hn
      exact ⟨h, fun hv => hn ((mem_tapeVars _ _).2 hv)⟩
  -- the tangent sweep
  obtain ⟨t1, t2, t3, t4, t5, t6⟩ := tlm_sweep true bs wf ht true
    ((seedTlm cs os ({ s with
        tan := s.tan.clear (tapeVars (bs.map RBlock.block))
        cot := s.cot.clear ((tapeVars (bs.map RBlock.block)).map fun v => (true, v)) } : RState V T A)).onBase
      (markAll (findRelevantNodes (bs.map RBlock.block) cs) true))
    (by
      intro v a h
      show a < (seedTlm cs os _).tan.next
      rw [e4]
      rcases e6 v a h with h | h
      · exact hos a h
      · exact hst v a (hclr v a h).1)
    (by
      intro b hb o ho
      have hno : o ∉ cs := fun h => (hcs o h).2 b.block (List.mem_map_of_mem hb) ho
      refine (e5 o hno).trans ?_
      show (s.tan.clear _).ref o = none
      rw [Objs.clear_ref, if_pos ((mem_tapeVars _ _).2 ⟨b.block, List.mem_map_of_mem hb, .inr ho⟩)])
  rw [abs_markAll, e1] at t1
  -- the Hessian sweep
  have hcot : ∀ x : RState V T A, x.cot = s.cot.clear ((tapeVars (bs.map RBlock.block)).map fun v => (true, v)) →
      x.cot.Sep true := fun x hx => hx ▸ hc
  have hcot1 := hcot _ (t2.trans e2)
  have hcot2 := Objs.setNew_sep true _ (true, J) (0 : A) hcot1
  obtain ⟨c1, c2, c3, c4⟩ := hess_sweep bs hb hself true
    (({ (((seedTlm cs os ({ s with
        tan := s.tan.clear (tapeVars (bs.map RBlock.block))
        cot := s.cot.clear ((tapeVars (bs.map RBlock.block)).map fun v => (true, v)) } : RState V T A)).onBase
      (markAll (findRelevantNodes (bs.map RBlock.block) cs) true)).evaluateTlm true bs true).onBase
        (markAll (findRelevantNodes (bs.map RBlock.block) cs) false) with
      cot := ((((seedTlm cs os ({ s with
        tan := s.tan.clear (tapeVars (bs.map RBlock.block))
        cot := s.cot.clear ((tapeVars (bs.map RBlock.block)).map fun v => (true, v)) } : RState V T A)).onBase
      (markAll (findRelevantNodes (bs.map RBlock.block) cs) true)).evaluateTlm true bs true).onBase
        (markAll (findRelevantNodes (bs.map RBlock.block) cs) false)).cot.setNew (true, J) 0 } : RState V T A).onBase
        (markAll (findRelevantNodes (bs.map RBlock.block) cs) true)) hcot2
  refine ⟨?_, c2, ?_, fun v hv => ?_, ?_, fun o ho => ?_, fun o ho hk => ?_⟩
  · have e7 := abs_setNew_hess true ((((seedTlm cs os ({ s with
        tan := s.tan.clear (tapeVars (bs.map RBlock.block))
        cot := s.cot.clear ((tapeVars (bs.map RBlock.block)).map fun v => (true, v)) } : RState V T A)).onBase
      (markAll (findRelevantNodes (bs.map RBlock.block) cs) true)).evaluateTlm true bs true).onBase
        (markAll (findRelevantNodes (bs.map RBlock.block) cs) false)) hcot1 J 0
    rw [abs_markAll, t1] at e7
    rw [abs_markAll, e7] at c1
    show (RState.onBase _ _).abs = _
    rw [abs_markAll]
    refine (congrArg _ c1).trans ?_
    rfl
  · intro v a h
    have h' : ∀ x y : Objs BV T, x = y → x.ref v = some a → (∀ v a, y.ref v = some a → a < y.next) → a < x.next := by
      rintro x y rfl h1 h2; exact h2 v a h1
    exact h' _ _ c3 h t3
  · have h1 : s'.tan.ref v = _ := congrFun (congrArg Objs.ref c3) v
    rw [h1]
    refine (t4 v fun b hb ho => hv ⟨b.block, List.mem_map_of_mem hb, .inr ho⟩).trans ?_
    refine (e5 v fun h => hv (hcs v h).1).trans ?_
    show (s.tan.clear _).ref v = _
    rw [Objs.clear_ref, if_neg fun h => hv ((mem_tapeVars _ _).1 h)]
  · have h1 : s'.tan.next = _ := congrArg Objs.next c3
    rw [h1]
    exact Nat.le_trans (Nat.le_of_eq e4.symm) t5
  · have h1 : s'.tan.store o = _ := congrFun (congrArg Objs.store c3) o
    rw [h1]
    refine (t6 o (Nat.lt_of_lt_of_eq ho e4.symm)).trans ?_
    exact congrFun e3 o
  · have hcoteq := t2.trans e2
    have hr : ∀ k, ((s.cot.clear ((tapeVars (bs.map RBlock.block)).map fun v => (true, v))).setNew (true, J) (0 : A)).ref k = some o →
        k.1 = false ∧ s.cot.ref k = some o := by
      intro k hk'
      rw [Objs.setNew_ref] at hk'
      split at hk'
      · have : o = s.cot.next := (Option.some.inj hk').symm
        omega
      · rw [Objs.clear_ref] at hk'
        split at hk'
        · cases hk'
        · rename_i hnm
          refine ⟨?_, hk'⟩
          cases hk1 : k.1 with
          | false => rfl
          | true =>
            exact absurd (List.mem_map.2 ⟨k.2, (mem_tapeVars _ _).2 (hk k hk' hk1), by rw [← hk1]⟩) hnm
    have hx : ∀ x : Objs (Bool × BV) A, x = s.cot.clear ((tapeVars (bs.map RBlock.block)).map fun v => (true, v)) →
        o < (x.setNew (true, J) (0 : A)).next ∧ (x.setNew (true, J) (0 : A)).store o = s.cot.store o ∧
        ∀ k, (x.setNew (true, J) (0 : A)).ref k = some o → k.1 = false ∧ s.cot.ref k = some o := by
      rintro x rfl
      exact ⟨Nat.lt_succ_of_lt ho, Objs.setNew_store _ _ _ _ ho, hr⟩
    obtain ⟨x1, x2, x3⟩ := hx _ hcoteq
    obtain ⟨d1, d2, d3⟩ := c4 o x1 fun k hk' => (x3 k hk').1
    exact ⟨d1, d2.trans x2, fun k hk' => x3 k (d3 k hk')⟩

end RState

namespace DWorld

/-! ## The machine one has in mind -/

/-- The values on the tape, the caller's directions, and the results the caller was given. -/
structure Ideal (V T A : Type*) where
  heap : Heap V T A
  dirs : List T
  res : List A

/-- Directions and results change only if the caller changes them, and calls depend on the tape and the directions only. -/
def Ideal.step [Add T] [Add A] [Zero A] (bs : Blocks V T A) (t : Ideal V T A) : DEvent V T A → Ideal V T A
  | .newDir x => { t with dirs := t.dirs ++ [x] }
  | .setDir i x => { t with dirs := t.dirs.set i x }
  | .setRes i x => { t with res := t.res.set i x }
  | .call cs xs => { t with heap := rfEval bs cs xs t.heap }
  | .derivative J cs a =>
    { t with heap := (computeGradient bs J cs a t.heap).2, res := t.res ++ (computeGradient bs J cs a t.heap).1 }
  | .hessian J cs ks =>
    { t with
      heap := (computeHessianOf bs J cs (ks.filterMap fun i => t.dirs[i]?) t.heap).2
      res := t.res ++ (computeHessianOf bs J cs (ks.filterMap fun i => t.dirs[i]?) t.heap).1 }

/-- What the caller sees. -/
def Ideal.seen (t : Ideal V T A) : List T × List A × (BV → V) := (t.dirs, t.res, saved t.heap)

/-- The controls of derivatives are different inputs of the tape, not results of its blocks. -/
def Fair (bs : Blocks V T A) : DEvent V T A → Prop
  | .derivative _ cs _ => cs.Nodup ∧ ∀ c ∈ cs, IsInput bs c
  | .hessian _ cs _ => cs.Nodup ∧ ∀ c ∈ cs, IsInput bs c
  | _ => True

/-- The invariant: the caller's objects are different, and where the tape refers to one, it does so in an attribute that is
reset before it is read. -/
structure Inv (bs : Blocks V T A) (w : DWorld V T A) (t : Ideal V T A) : Prop where
  sep : w.st.cot.Sep true
  tanB : ∀ v a, w.st.tan.ref v = some a → a < w.st.tan.next
  agree : Agree bs w.st.abs t.heap
  dlt : ∀ o ∈ w.dirs, o < w.st.tan.next
  dnd : w.dirs.Nodup
  dref : ∀ o ∈ w.dirs, ∀ v, w.st.tan.ref v = some o → OnTape bs v
  dval : w.dirs.map w.st.tan.store = t.dirs
  rlt : ∀ o ∈ w.res, o < w.st.cot.next
  rnd : w.res.Nodup
  rref : ∀ o ∈ w.res, ∀ k, w.st.cot.ref k = some o → OnTape bs k.2 ∧ (k.1 = false → IsInput bs k.2)
  rval : w.res.map w.st.cot.store = t.res

theorem map_update_nodup {α : Type*} (f : Nat → α) (l : List Nat) (hl : l.Nodup) (i o : Nat) (h : l[i]? = some o) (x : α) :
    l.map (Function.update f o x) = (l.map f).set i x := by
  apply List.ext_getElem?
  intro j
  rw [List.getElem?_map, List.getElem?_set, List.getElem?_map]
  by_cases hij : i = j
  · subst hij
    have : i < l.length := (List.getElem?_eq_some_iff.1 h).1
    rw [h]
    simp [this]
  · rw [if_neg hij]
    cases hj : l[j]? with
    | none => rfl
    | some p =>
      have : p ≠ o := by
        rintro rfl
        obtain ⟨h1, h2⟩ := List.getElem?_eq_some_iff.1 h
        obtain ⟨h3, h4⟩ := List.getElem?_eq_some_iff.1 hj
        exact hij ((List.Nodup.getElem_inj_iff hl).1 (h2.trans h4.symm))
      simp [this]

theorem abs_agree (bs : Blocks V T A) (s s' : RState V T A) (hb : s'.base = s.base)
    (h1 : ∀ v, ¬ OnTape bs v → s'.tan.val v = s.tan.val v) (h2 : ∀ v, ¬ IsInput bs v → s'.cot.val (false, v) = s.cot.val (false, v))
    (h3 : ∀ v, ¬ OnTape bs v → s'.cot.val (true, v) = s.cot.val (true, v)) : Agree bs s'.abs s.abs := by
  refine ⟨fun v => s'.tan.val v, fun v => s'.cot.val (false, v), fun v => s'.cot.val (true, v), ?_⟩
  funext v
  simp only [mapVars, over, RState.abs]
  rw [hb]
  by_cases ho : OnTape bs v <;> by_cases hi : IsInput bs v <;> simp_all

theorem write_val_of_ne (s : Objs K A) (o : Nat) (x : A) (k : K) (h : s.ref k ≠ some o) : (s.write o x).val k = s.val k := by
  unfold Objs.val Objs.write
  dsimp only
  cases hr : s.ref k with
  | none => rfl
  | some p =>
    have : p ≠ o := fun e => h (by rw [hr, e])
    simp [this]

/-- Handing out the results. -/
theorem give_loop [Zero A] (b : Bool) (cs : List BV) (hnd : cs.Nodup) (w : DWorld V T A) (hs : w.st.cot.Sep true)
    (hlt : ∀ o ∈ w.res, o < w.st.cot.next) (hrn : w.res.Nodup)
    (hnew : ∀ o ∈ w.res, ∀ c ∈ cs, w.st.cot.ref (b, c) ≠ some o) :
    let w' := cs.foldl (fun w c => w.give (b, c)) w
    w'.st.base = w.st.base ∧ w'.st.tan = w.st.tan ∧ w'.dirs = w.dirs ∧ w'.st.cot.ref = w.st.cot.ref ∧
    w'.st.cot.val = w.st.cot.val ∧ w'.st.cot.Sep true ∧ (∀ o ∈ w'.res, o < w'.st.cot.next) ∧ w'.res.Nodup ∧
    (∀ o ∈ w'.res, ∀ k, w.st.cot.ref k = some o → o ∈ w.res ∨ (k.1 = b ∧ k.2 ∈ cs)) ∧
    w'.res.map w'.st.cot.store = w.res.map w.st.cot.store ++ cs.map fun c => (w.st.cot.val (b, c)).getD 0 := by
  induction cs generalizing w with
  | nil => exact ⟨rfl, rfl, rfl, rfl, rfl, hs, hlt, hrn, fun o ho _ _ => .inl ho, by simp⟩
  | cons c cs ih =>
    have hnd' := List.nodup_cons.1 hnd
    rw [List.foldl_cons]
    cases hr : w.st.cot.ref (b, c) with
    | some o =>
      have e : w.give (b, c) = { w with res := w.res ++ [o] } := by unfold give; rw [hr]
      rw [e]
      obtain ⟨i1, i2, i3, i4, i5, i6, i7, i8, i9, i10⟩ := ih hnd'.2 { w with res := w.res ++ [o] } hs
        (by
          intro p hp
          rcases List.mem_append.1 hp with h | h
          · exact hlt p h
          · rw [List.mem_singleton.1 h]; exact hs.bounded _ _ hr)
        (by
          refine List.nodup_append.2 ⟨hrn, by simp, ?_⟩
          intro p hp q hq
          rw [List.mem_singleton.1 hq]
          rintro rfl
          exact hnew p hp c (by simp) hr)
        (by
          intro p hp d hd
          rcases List.mem_append.1 hp with h | h
          · exact hnew p h d (by simp [hd])
          · rw [List.mem_singleton.1 h]
            intro h'
            have := hs.inj rfl _ _ _ h' hr
            have : d = c := by simpa using this
            exact hnd'.1 (this ▸ hd))
      refine ⟨i1, i2, i3, i4, i5, i6, i7, i8, fun p hp k hk => ?_, ?_⟩
      · rcases i9 p hp k hk with h | ⟨h1, h2⟩
        · rcases List.mem_append.1 h with h | h
          · exact .inl h
          · rw [List.mem_singleton.1 h] at hk
            have := hs.inj rfl _ _ _ hk hr
            exact .inr (by simp [this])
        · exact .inr ⟨h1, by simp [h2]⟩
      · rw [i10]
        simp [Objs.val, hr]
    | none =>
      have e : w.give (b, c) = { w with st := { w.st with cot := (w.st.cot.alloc 0).2 }, res := w.res ++ [w.st.cot.next] } := by
        unfold give; rw [hr]
      rw [e]
      have hval : (w.st.cot.alloc 0).2.val = w.st.cot.val := Objs.alloc_val w.st.cot hs 0
      obtain ⟨i1, i2, i3, i4, i5, i6, i7, i8, i9, i10⟩ := ih hnd'.2
        { w with st := { w.st with cot := (w.st.cot.alloc 0).2 }, res := w.res ++ [w.st.cot.next] }
        (Objs.alloc_sep w.st.cot hs 0)
        (by
          intro p hp
          rcases List.mem_append.1 hp with h | h
          · exact Nat.lt_succ_of_lt (hlt p h)
          · rw [List.mem_singleton.1 h]; exact Nat.lt_succ_self _)
        (by
          refine List.nodup_append.2 ⟨hrn, by simp, ?_⟩
          intro p hp q hq
          rw [List.mem_singleton.1 hq]
          rintro rfl
          exact Nat.lt_irrefl _ (hlt _ hp))
        (by
          intro p hp d hd
          rcases List.mem_append.1 hp with h | h
          · exact hnew p h d (by simp [hd])
          · rw [List.mem_singleton.1 h]
            intro h'
            exact Nat.lt_irrefl _ (hs.bounded _ _ h'))
      refine ⟨i1, i2, i3, i4, i5.trans hval, i6, i7, i8, fun p hp k hk => ?_, ?_⟩
      · rcases i9 p hp k hk with h | ⟨h1, h2⟩
        · rcases List.mem_append.1 h with h | h
          · exact .inl h
          · rw [List.mem_singleton.1 h] at hk
            exact absurd (hs.bounded _ _ hk) (Nat.lt_irrefl _)
        · exact .inr ⟨h1, by simp [h2]⟩
      · rw [i10]
        dsimp only
        rw [hval, List.map_append, List.map_cons, List.append_assoc]
        congr 1
        · apply List.map_congr_left
          intro p hp
          have := hlt p hp
          simp only [Objs.alloc]
          rw [Function.update_of_ne (by omega)]
        · simp [Objs.val, Objs.alloc, hr]

theorem getDerivative_eq [Zero A] (h : Heap V T A) (c : BV) : getDerivative h c = ((h c).adj).getD 0 := by
  unfold getDerivative; cases (h c).adj <;> rfl

theorem getHessian_eq [Zero A] (h : Heap V T A) (c : BV) : getHessian h c = ((h c).hess).getD 0 := by
  unfold getHessian; cases (h c).hess <;> rfl

/-- What is assumed of the tape: `+=` works in place, and no block hands on the adjoint or Hessian values it was given (it may
hand on tangent values). -/
structure Good (bs : List (RBlock V T A)) : Prop where
  ok : ∀ b ∈ bs, b.Ok true
  wf : WF (bs.map RBlock.block)
  tlm : ∀ b ∈ bs, ∀ inputs ins idx k, b.tlmSrc idx = some k → b.block.tlmC inputs ins idx = (ins[k]?).join

theorem filterMap_dirs {f : Nat → T} {ds : List Nat} {ts : List T} (h : ds.map f = ts) (ks : List Nat) :
    (ks.filterMap fun i => ds[i]?).map f = ks.filterMap fun i => ts[i]? := by
  subst h
  rw [List.map_filterMap]
  congr 1
  funext i
  simp

theorem Inv.step [Add T] [Add A] [Zero A] {bs : List (RBlock V T A)} (g : Good bs) {w : DWorld V T A} {t : Ideal V T A}
    (h : Inv (bs.map RBlock.block) w t) (e : DEvent V T A) (he : Fair (bs.map RBlock.block) e) :
    Inv (bs.map RBlock.block) (w.step true bs e) (t.step (bs.map RBlock.block) e) := by
  have hself : ∀ b ∈ bs, ∀ d ∈ b.block.deps, d ∉ b.block.outs := fun b hb => g.wf.self b.block (List.mem_map_of_mem hb)
  cases e with
  | newDir x =>
    have hold : ∀ o ∈ w.dirs, (w.st.tan.alloc x).2.store o = w.st.tan.store o := by
      intro o ho
      have := h.dlt o ho
      simp only [Objs.alloc]
      rw [Function.update_of_ne (by omega)]
    refine ⟨h.sep, fun v a hv => Nat.lt_succ_of_lt (h.tanB v a hv), ?_, ?_, ?_, ?_, ?_, h.rlt, h.rnd, h.rref, h.rval⟩
    · refine Agree.trans (abs_agree _ w.st _ rfl (fun v _ => ?_) (fun _ _ => rfl) (fun _ _ => rfl)) h.agree
      show (w.st.tan.alloc x).2.val v = _
      unfold Objs.val
      have : (w.st.tan.alloc x).2.ref v = w.st.tan.ref v := rfl
      rw [this]
      cases hr : w.st.tan.ref v with
      | none => rfl
      | some a =>
        have := h.tanB v a hr
        simp only [Objs.alloc, Option.map_some]
        rw [Function.update_of_ne (by omega)]
    · intro o ho
      rcases List.mem_append.1 ho with h' | h'
      · exact Nat.lt_succ_of_lt (h.dlt o h')
      · rw [List.mem_singleton.1 h']; exact Nat.lt_succ_self _
    · refine List.nodup_append.2 ⟨h.dnd, by simp, ?_⟩
      intro p hp q hq
      rw [List.mem_singleton.1 hq]
      rintro rfl
      exact Nat.lt_irrefl _ (h.dlt _ hp)
    · intro o ho v hv
      rcases List.mem_append.1 ho with h' | h'
      · exact h.dref o h' v hv
      · rw [List.mem_singleton.1 h'] at hv
        exact absurd (h.tanB v _ hv) (Nat.lt_irrefl _)
    · show (w.dirs ++ [w.st.tan.next]).map (w.st.tan.alloc x).2.store = t.dirs ++ [x]
      rw [List.map_append, List.map_congr_left hold, h.dval]
      simp [Objs.alloc]
  | setDir i x =>
    show Inv _ ((w.dirs[i]?).elim w fun o => { w with st := { w.st with tan := w.st.tan.write o x } })
      { t with dirs := t.dirs.set i x }
    cases hi : w.dirs[i]? with
    | none =>
      have hlen : t.dirs.length ≤ i := by
        rw [← h.dval, List.length_map]; exact List.getElem?_eq_none_iff.1 hi
      rw [Option.elim_none, List.set_eq_of_length_le hlen]
      exact h
    | some o =>
      rw [Option.elim_some]
      have ho := List.mem_of_getElem? hi
      refine ⟨h.sep, h.tanB, ?_, h.dlt, h.dnd, h.dref, ?_, h.rlt, h.rnd, h.rref, h.rval⟩
      · refine Agree.trans (abs_agree _ w.st _ rfl (fun v hv => ?_) (fun _ _ => rfl) (fun _ _ => rfl)) h.agree
        exact write_val_of_ne _ _ _ _ fun h' => hv (h.dref o ho v h')
      · rw [← h.dval]
        exact map_update_nodup _ _ h.dnd i o hi x
  | setRes i x =>
    show Inv _ ((w.res[i]?).elim w fun o => { w with st := { w.st with cot := w.st.cot.write o x } })
      { t with res := t.res.set i x }
    cases hi : w.res[i]? with
    | none =>
      have hlen : t.res.length ≤ i := by
        rw [← h.rval, List.length_map]; exact List.getElem?_eq_none_iff.1 hi
      rw [Option.elim_none, List.set_eq_of_length_le hlen]
      exact h
    | some o =>
      rw [Option.elim_some]
      have ho := List.mem_of_getElem? hi
      refine ⟨⟨h.sep.bounded, h.sep.inj⟩, h.tanB, ?_, h.dlt, h.dnd, h.dref, h.dval, h.rlt, h.rnd, h.rref, ?_⟩
      · refine Agree.trans (abs_agree _ w.st _ rfl (fun _ _ => rfl) (fun v hv => ?_) (fun v hv => ?_)) h.agree
        · exact write_val_of_ne _ _ _ _ fun h' => hv ((h.rref o ho _ h').2 rfl)
        · exact write_val_of_ne _ _ _ _ fun h' => hv (h.rref o ho _ h').1
      · rw [← h.rval]
        exact map_update_nodup _ _ h.rnd i o hi x
  | call cs xs =>
    refine ⟨h.sep, h.tanB, ?_, h.dlt, h.dnd, h.dref, h.dval, h.rlt, h.rnd, h.rref, h.rval⟩
    show Agree _ (w.st.onBase _).abs _
    rw [RState.abs_rfEval]
    exact h.agree.rfEval cs xs
  | derivative J cs a =>
    obtain ⟨g1, g2, g3, g4⟩ := RState.gradientState_spec bs g.ok hself J cs a w.st h.sep
    have hkeep := fun o ho => g4 o (h.rlt o ho) fun k hk _ => (h.rref o ho k hk).1
    obtain ⟨i1, i2, i3, i4, i5, i6, i7, i8, i9, i10⟩ := give_loop false cs he.1
      { w with st := w.st.gradientState true bs J cs a } g2 (fun o ho => (hkeep o ho).1) h.rnd
      (fun o ho c _ hr => by cases ((hkeep o ho).2.2 _ hr).1)
    obtain ⟨a1, a2⟩ := h.agree.gradient J cs a
    have habs : ((w.step true bs (.derivative J cs a)).st).abs = (computeGradient (bs.map RBlock.block) J cs a w.st.abs).2 := by
      refine Eq.trans ?_ g1
      funext v
      simp only [RState.abs, DWorld.step]
      rw [i1, i2, i5]
    have htan : (w.step true bs (.derivative J cs a)).st.tan = w.st.tan := i2.trans g3
    refine ⟨i6, ?_, ?_, ?_, ?_, ?_, ?_, i7, i8, ?_, ?_⟩
    · rw [htan]; exact h.tanB
    · rw [habs]; exact a2
    · rw [htan]; exact fun o ho => h.dlt o (i3 ▸ ho)
    · exact i3.symm ▸ h.dnd
    · rw [htan]; exact fun o ho => h.dref o (i3 ▸ ho)
    · rw [htan]
      have : (w.step true bs (.derivative J cs a)).dirs = w.dirs := i3
      rw [this]; exact h.dval
    · intro o ho k hk
      have hk' : (w.st.gradientState true bs J cs a).cot.ref k = some o := (congrFun i4 k).symm.trans hk
      rcases i9 o ho k hk' with h' | ⟨h1, h2⟩
      · exact h.rref o h' k ((hkeep o h').2.2 k hk').2
      · exact ⟨(he.2 _ h2).1, fun _ => he.2 _ h2⟩
    · refine i10.trans ?_
      show _ = t.res ++ _
      rw [← a1, ← h.rval]
      congr 1
      · exact List.map_congr_left fun o ho => (hkeep o ho).2.1
      · show _ = cs.map (getDerivative (computeGradientState _ J cs a w.st.abs))
        apply List.map_congr_left
        intro c _
        rw [getDerivative_eq, ← g1]
        rfl
  | hessian J cs ks =>
    have hos : ∀ o ∈ ks.filterMap (fun i => w.dirs[i]?), o < w.st.tan.next := by
      intro o ho
      obtain ⟨i, _, hi⟩ := List.mem_filterMap.1 ho
      exact h.dlt o (List.mem_of_getElem? hi)
    obtain ⟨g1, g2, g3, g5, g6, g7, g4⟩ := RState.hessianState_spec bs g.ok g.wf g.tlm J cs he.2
      (ks.filterMap fun i => w.dirs[i]?) w.st h.sep h.tanB hos
    rw [filterMap_dirs h.dval] at g1
    have hkeep := fun o ho => g4 o (h.rlt o ho) fun k hk _ => (h.rref o ho k hk).1
    obtain ⟨i1, i2, i3, i4, i5, i6, i7, i8, i9, i10⟩ := give_loop true cs he.1
      { w with st := w.st.hessianState true bs J cs (ks.filterMap fun i => w.dirs[i]?) } g2 (fun o ho => (hkeep o ho).1) h.rnd
      (fun o ho c _ hr => by cases ((hkeep o ho).2.2 _ hr).1)
    obtain ⟨a1, a2⟩ := h.agree.hessian J cs (ks.filterMap fun i => t.dirs[i]?)
    have habs : ((w.step true bs (.hessian J cs ks)).st).abs =
        (computeHessianOf (bs.map RBlock.block) J cs (ks.filterMap fun i => t.dirs[i]?) w.st.abs).2 := by
      refine Eq.trans ?_ g1
      funext v
      simp only [RState.abs, DWorld.step]
      rw [i1, i2, i5]
    have htan : (w.step true bs (.hessian J cs ks)).st.tan =
        (w.st.hessianState true bs J cs (ks.filterMap fun i => w.dirs[i]?)).tan := i2
    have hdirs : (w.step true bs (.hessian J cs ks)).dirs = w.dirs := i3
    refine ⟨i6, ?_, ?_, ?_, ?_, ?_, ?_, i7, i8, ?_, ?_⟩
    · rw [htan]; exact g3
    · rw [habs]; exact a2
    · rw [htan, hdirs]; exact fun o ho => Nat.lt_of_lt_of_le (h.dlt o ho) g6
    · rw [hdirs]; exact h.dnd
    · rw [htan, hdirs]
      intro o ho v hv
      by_cases hon : OnTape (bs.map RBlock.block) v
      · exact hon
      · rw [g5 v hon] at hv
        exact h.dref o ho v hv
    · rw [htan, hdirs]
      refine Eq.trans ?_ h.dval
      exact List.map_congr_left fun o ho => g7 o (h.dlt o ho)
    · intro o ho k hk
      have hk' : (w.st.hessianState true bs J cs (ks.filterMap fun i => w.dirs[i]?)).cot.ref k = some o :=
        (congrFun i4 k).symm.trans hk
      rcases i9 o ho k hk' with h' | ⟨h1, h2⟩
      · exact h.rref o h' k ((hkeep o h').2.2 k hk').2
      · exact ⟨(he.2 _ h2).1, fun _ => he.2 _ h2⟩
    · refine i10.trans ?_
      show _ = t.res ++ _
      rw [← a1, ← h.rval]
      congr 1
      · exact List.map_congr_left fun o ho => (hkeep o ho).2.1
      · show _ = cs.map (getHessian (computeHessianOf _ J cs _ w.st.abs).2)
        apply List.map_congr_left
        intro c _
        rw [getHessian_eq, ← g1]
        rfl

/-- **C76.** Derivatives returned and directions given belong to the caller: for a type whose values are changed in place, on
a tape whose blocks do not hand on the adjoint and Hessian values they were given, and controls that are inputs of the tape,
whatever the caller does, in whatever order, changing the directions and results it holds at any time: it sees what it
would see if directions and results were values of its own.  In particular earlier results stay as they were returned,
and no change the caller makes to a result or to a direction after it was used has an effect on any later result. -/
theorem caller_owns_derivatives_partial [Add T] [Add A] [Zero A] {bs : List (RBlock V T A)} (g : Good bs) (w : DWorld V T A)
    (hs : w.st.cot.Sep true) (ht : ∀ v a, w.st.tan.ref v = some a → a < w.st.tan.next) (hd : w.dirs = []) (hr : w.res = [])
    (es : List (DEvent V T A)) (hes : ∀ e ∈ es, Fair (bs.map RBlock.block) e) :
    (es.foldl (fun w e => w.step true bs e) w).seen =
      (es.foldl (fun t e => t.step (bs.map RBlock.block) e) (⟨w.st.abs, [], []⟩ : Ideal V T A)).seen := by
  have h0 : Inv (bs.map RBlock.block) w (⟨w.st.abs, [], []⟩ : Ideal V T A) :=
    ⟨hs, ht, Agree.refl _ _, by simp [hd], by simp [hd], by simp [hd], by simp [hd], by simp [hr], by simp [hr], by simp [hr],
      by simp [hr]⟩
  have key : ∀ (es : List (DEvent V T A)) (w : DWorld V T A) (t : Ideal V T A), Inv (bs.map RBlock.block) w t →
      (∀ e ∈ es, Fair (bs.map RBlock.block) e) →
      Inv (bs.map RBlock.block) (es.foldl (fun w e => w.step true bs e) w)
        (es.foldl (fun t e => t.step (bs.map RBlock.block) e) t) := by
    intro es
    induction es with
    | nil => intro w t h _; exact h
    | cons e es ih =>
      intro w t h hes
      exact ih _ _ (h.step g e (hes e (by simp))) fun e' he' => hes e' (by simp [he'])
  have h := key es w _ h0 hes
  have hsv : saved (es.foldl (fun w e => w.step true bs e) w).st.base =
      saved (es.foldl (fun w e => w.step true bs e) w).st.abs := rfl
  unfold seen Ideal.seen
  rw [h.dval, h.rval, hsv, h.agree.saved]

/-! ## Examples, and what the conditions are for -/

/-- A block `y = x²`, with new objects for all components. -/
def dSquare (x y : BV) : RBlock Int Int Int where
  block :=
    { deps := [x], outs := [y]
      recomputeC := fun i _ => some (i.getD 0 0 * i.getD 0 0)
      adjC := fun i a _ => (a[0]?).join.map fun a => 2 * i.getD 0 0 * a
      tlmC := fun i t _ => (t[0]?).join.map fun t => 2 * i.getD 0 0 * t
      hessC := fun i h a _ ts => some (2 * i.getD 0 0 * (h[0]?).join.getD 0 +
        2 * (a[0]?).join.getD 0 * ((ts.head?).bind Prod.snd).getD 0) }
  adjSrc := fun _ => none
  tlmSrc := fun _ => none
  hessSrc := fun _ => none

/-- A block `z = 3 y`, with new objects for all components. -/
def dTriple (y z : BV) : RBlock Int Int Int where
  block :=
    { deps := [y], outs := [z]
      recomputeC := fun i _ => some (3 * i.getD 0 0)
      adjC := fun _ a _ => (a[0]?).join.map fun a => 3 * a
      tlmC := fun _ t _ => (t[0]?).join.map fun t => 3 * t
      hessC := fun _ h _ _ _ => (h[0]?).join.map fun a => 3 * a }
  adjSrc := fun _ => none
  tlmSrc := fun _ => none
  hessSrc := fun _ => none

/-- `y = x²`, `J = 3 y`, recorded at `x = 5`, and a caller that holds nothing. -/
def dStart : DWorld Int Int Int where
  st :=
    { base := fun v => { output := if v = 0 then 5 else if v = 1 then 25 else 75 }
      tan := { ref := fun _ => none, store := fun _ => 0, next := 0 }
      cot := { ref := fun _ => none, store := fun _ => 0, next := 0 } }
  dirs := []
  res := []

theorem good_example : Good [dSquare 0 1, dTriple 1 2] := by
  refine ⟨?_, ⟨?_, ?_, ?_⟩, ?_⟩
  · intro b hb
    have hb' : b = dSquare 0 1 ∨ b = dTriple 1 2 := by simpa using hb
    rcases hb' with rfl | rfl <;>
      exact ⟨fun _ => ⟨fun _ _ _ h => (by cases h), fun _ _ => rfl⟩, fun _ _ => ⟨fun _ _ _ h => (by cases h), fun _ _ => rfl⟩⟩
  · simp [dSquare, dTriple]
  · simp [dSquare, dTriple]
  · simp [dSquare, dTriple]
  · intro b hb
    have hb' : b = dSquare 0 1 ∨ b = dTriple 1 2 := by simpa using hb
    rcases hb' with rfl | rfl <;> exact fun _ _ _ _ h => by cases h

theorem input_example : IsInput ([dSquare 0 1, dTriple 1 2].map RBlock.block) 0 := by
  refine ⟨⟨_, List.mem_cons_self .., .inl (by simp [dSquare])⟩, ?_⟩
  simp [dSquare, dTriple]

/-- A derivative, which the caller then scales; a Hessian, whose direction the caller then changes; the Hessian again; and
the derivative at another point. -/
def dScript : List (DEvent Int Int Int) :=
  [.newDir 1, .derivative 2 [0] 1, .setRes 0 300, .hessian 2 [0] [0], .setDir 0 10, .setRes 1 (-1), .hessian 2 [0] [0],
    .call [0] [2], .derivative 2 [0] 1]

/-- The hypotheses hold, and what is seen is what it should be: the derivative 30 (changed to 300), the second derivative 6
(changed to -1), 60 in the new direction, and 12 at the new point. -/
example : (∀ e ∈ dScript, Fair ([dSquare 0 1, dTriple 1 2].map RBlock.block) e) ∧ dStart.st.cot.Sep true ∧
    (dScript.foldl (fun w e => w.step true [dSquare 0 1, dTriple 1 2] e) dStart).seen.2.1 = [300, -1, 60, 12] ∧
    (dScript.foldl (fun w e => w.step true [dSquare 0 1, dTriple 1 2] e) dStart).seen.1 = [10] := by
  refine ⟨?_, ⟨fun k a h => (by cases h), fun _ k l a h => (by cases h)⟩, by decide +kernel, by decide +kernel⟩
  intro e he
  simp only [dScript, List.mem_cons, List.not_mem_nil, or_false] at he
  have h0 := input_example
  rcases he with rfl | rfl | rfl | rfl | rfl | rfl | rfl | rfl | rfl <;>
    first
    | exact trivial
    | exact ⟨by simp, by simpa using h0⟩

/-- **C76 fails for intermediate controls.** The derivatives with respect to `y` and `x` are computed, and the caller sets
its copy of the former to zero; the second derivative, which is 6, then is 0. -/
theorem intermediate_derivative_is_the_tapes :
    ([DEvent.newDir 1, .derivative 2 [1, 0] 1, .setRes 0 0, .hessian 2 [0] [0]].foldl
      (fun w e => w.step true [dSquare 0 1, dTriple 1 2] e) dStart).seen.2.1 = [0, 30, 0] ∧
    ([DEvent.newDir 1, .derivative 2 [1, 0] 1, .setRes 0 0, .hessian 2 [0] [0]].foldl
      (fun t e => t.step ([dSquare 0 1, dTriple 1 2].map RBlock.block) e) (⟨dStart.st.abs, [], []⟩ : Ideal Int Int Int)).seen.2.1 =
        [0, 30, 6] := by
  refine ⟨?_, ?_⟩ <;> decide +kernel

/-- **C76 fails for blocks that hand on what they were given.** `J = a + b`: the derivatives with respect to `a` and `b` are
one object, so changing one changes the other. -/
theorem derivatives_of_a_sum_shared :
    ([DEvent.derivative 2 [0, 1] 1, .setRes 0 5].foldl
      (fun w e => w.step true [rAdd 0 1 2] e) dStart).seen.2.1 = [5, 5] ∧
    ([DEvent.derivative 2 [0, 1] 1, .setRes 0 5].foldl
      (fun t e => t.step ([rAdd 0 1 2].map RBlock.block) e) (⟨dStart.st.abs, [], []⟩ : Ideal Int Int Int)).seen.2.1 = [5, 1] := by
  refine ⟨?_, ?_⟩ <;> decide +kernel

/-- **C76 fails for controls given twice.** The two derivatives are one object. -/
theorem derivatives_of_repeated_control_shared :
    ([DEvent.derivative 2 [0, 0] 1, .setRes 0 5].foldl
      (fun w e => w.step true [dSquare 0 1, dTriple 1 2] e) dStart).seen.2.1 = [5, 5] ∧
    ([DEvent.derivative 2 [0, 0] 1, .setRes 0 5].foldl
      (fun t e => t.step ([dSquare 0 1, dTriple 1 2].map RBlock.block) e) (⟨dStart.st.abs, [], []⟩ : Ideal Int Int Int)).seen.2.1 =
        [5, 30] := by
  refine ⟨?_, ?_⟩ <;> decide +kernel

end DWorld

end Pyadjoint
