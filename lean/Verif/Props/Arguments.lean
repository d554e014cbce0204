import Verif.Model.Arguments
import Verif.Props.Callbacks

/-!
# C92: unsuitable arguments

An evaluation with values of the wrong number or of the wrong types is refused before anything happens (`call_refused_iff`, `refused_calls_can_be_left_out`).  Too many directions for a
Hessian are refused late, but without consequences for later requests (`too_many_directions_partial`); too few are not refused (`too_few_directions`).
-/

namespace Pyadjoint
namespace Cb

variable {σ R T C α β : Type*}

/-! ## Specification -/

/-- A value of class `v` suits a control of class `c`: it is an instance of the class, or a number and the class is `AdjFloat`. -/
def Suits (K : Types C) (c v : C) : Prop := K.isinstance v c = true ∨ (K.number v = true ∧ c = K.adjFloat)

/-- The values suit the controls of a reduced functional, in number and in types. -/
def SuitAll (K : Types C) (types : List C) (values : List (Typed C R)) : Prop := List.Forall₂ (Suits K) types (values.map Typed.cls)

/-! ## Evaluations -/

theorem suits_iff [DecidableEq C] (K : Types C) (c v : C) :
    Suits K c v ↔ ¬ (¬ (K.number v = true ∧ c = K.adjFloat) ∧ ¬ K.isinstance v c = true) := by
  unfold Suits; tauto

theorem refused_spec [DecidableEq C] (K : Types C) (types values : List C) (hl : values.length = types.length) (i : Nat) :
    match K.refused types values i with
    | none => List.Forall₂ (Suits K) types values
    | some j => ∃ (k : Nat) (hk : k < types.length), j = i + k ∧ ¬ Suits K types[k] (values[k]'(hl ▸ hk)) ∧
        ∀ (m : Nat) (hm : m < k), Suits K (types[m]'(hm.trans hk)) (values[m]'(hl ▸ hm.trans hk)) := by
  induction types generalizing values i with
  | nil =>
    obtain rfl : values = [] := List.length_eq_zero_iff.1 hl
    exact .nil
  | cons c types ih =>
    obtain _ | ⟨v, values⟩ := values
    · cases hl
    have hl' : values.length = types.length := by simpa using hl
    have next : Suits K c v → K.refused (c :: types) (v :: values) i = K.refused types values (i + 1) →
        match K.refused (c :: types) (v :: values) i with
        | none => List.Forall₂ (Suits K) (c :: types) (v :: values)
        | some j => ∃ (k : Nat) (hk : k < (c :: types).length), j = i + k ∧ ¬ Suits K (c :: types)[k] ((v :: values)[k]'(hl ▸ hk)) ∧
            ∀ (m : Nat) (hm : m < k), Suits K ((c :: types)[m]'(hm.trans hk)) ((v :: values)[m]'(hl ▸ hm.trans hk)) := by
      intro hs he
      rw [he]
      have h := ih values hl' (i + 1)
      cases hr : K.refused types values (i + 1) with
      | none => rw [hr] at h; exact .cons hs h
      | some j =>
        rw [hr] at h
        obtain ⟨k, hk, rfl, h1, h2⟩ := h
        refine ⟨k + 1, by simpa using hk, by omega, h1, fun m hm => ?_⟩
        cases m with
        | zero => exact hs
        | succ m => exact h2 m (by omega)
    by_cases h1 : K.number v = true ∧ c = K.adjFloat
    · exact next (Or.inr h1) (by rw [Types.refused, if_pos h1])
    · by_cases h2 : K.isinstance v c = true
      · exact next (Or.inl h2) (by rw [Types.refused, if_neg h1, if_neg (by simpa using h2)])
      · rw [Types.refused, if_neg h1, if_pos h2]
        exact ⟨0, by simp, rfl, fun h => h.elim h2 h1, fun m hm => absurd hm (by omega)⟩

/-- **C92, evaluations.** For all classes, callbacks and states: a call ends with the `ValueError` exactly if the number of values is wrong; with the `TypeError` exactly if the number is
right and some value does not suit its control, naming the first such index if there are several values; and otherwise it is the call itself.  A refused call runs no callback and changes
nothing. -/
theorem call_refused_iff [DecidableEq C] [Mul R] (K : Types C) (types : List C) (rf : RF R) (ht : types.length = rf.enlisted.items.length) (cb : Callbacks σ R T)
    (values : Arg (Typed C R)) (w : World σ R T) :
    let vs := (Enlist.of values).items
    let r := typedCall K types rf cb values w
    (r.1 = .wrongNumber ↔ vs.length ≠ types.length) ∧
    (∀ j, r.1 = .wrongType j ↔ ∃ hl : vs.length = types.length, ∃ (k : Nat) (hk : k < types.length), ¬ Suits K types[k] (vs[k]'(hl ▸ hk)).cls ∧
        (∀ (m : Nat) (hm : m < k), Suits K (types[m]'(hm.trans hk)) (vs[m]'(hl ▸ hm.trans hk)).cls) ∧ j = if types.length = 1 then none else some k) ∧
    (SuitAll K types vs → r = ((.ran ((callFn rf cb (plainArg values)).answer .value w).1), ((callFn rf cb (plainArg values)).answer .value w).2)) ∧
    (¬ SuitAll K types vs → r.2 = w) := by
  intro vs r
  have hr : r = typedCall K types rf cb values w := rfl
  unfold typedCall at hr
  dsimp only at hr
  rw [← ht] at hr
  by_cases hl : vs.length = types.length
  · rw [if_neg (not_not.2 hl)] at hr
    have h := refused_spec K types (vs.map Typed.cls) (by rw [List.length_map, hl]) 0
    change r = (match K.refused types (vs.map Typed.cls) 0 with
      | some i => (.wrongType (if vs.length = 1 then none else some i), w)
      | none => _) at hr
    cases hx : K.refused types (vs.map Typed.cls) 0 with
    | none =>
      rw [hx] at h hr
      dsimp only at h hr
      refine ⟨by rw [hr]; simp [hl], fun j => ?_, fun _ => hr, fun hn => absurd h hn⟩
      rw [hr]
      refine ⟨fun h => (by cases h), fun hex => ?_⟩
      obtain ⟨hl, k, hk, hn, -⟩ := hex
      have := List.forall₂_iff_get.1 h
      exact absurd (by simpa using this.2 k hk (by simpa [hl] using hk)) hn
    | some i =>
      rw [hx] at h hr
      dsimp only at h hr
      rw [hl] at hr
      obtain ⟨k, hk, e, h1, h2⟩ := h
      obtain rfl : i = k := by omega
      have hns : ¬ SuitAll K types vs := fun hs => by
        have := List.forall₂_iff_get.1 hs
        exact h1 (by simpa using this.2 i hk (by simpa [hl] using hk))
      refine ⟨by rw [hr]; simp [hl], fun j => ?_, fun hs => absurd hs hns, fun _ => by rw [hr]⟩
      rw [hr]
      refine ⟨fun h => ⟨hl, i, hk, by simpa using h1, fun m hm => by simpa using h2 m hm, (by cases h; rfl)⟩, ?_⟩
      rintro ⟨_, k, hk', g1, g2, rfl⟩
      have : i = k := by
        rcases Nat.lt_trichotomy i k with hlt | rfl | hlt
        · exact absurd (g2 i hlt) (by simpa using h1)
        · rfl
        · exact absurd (by simpa using h2 k hlt) g1
      subst this; rfl
  · rw [if_pos hl] at hr
    have hns : ¬ SuitAll K types vs := fun hs => hl (by simpa using hs.length_eq.symm)
    refine ⟨by rw [hr]; simp [hl], fun j => ?_, fun hs => absurd hs hns, fun _ => by rw [hr]⟩
    rw [hr]
    exact ⟨fun h => (by cases h), fun ⟨h, _⟩ => absurd h hl⟩

/-- A request that is not an evaluation with unsuitable values. -/
def TypedRequest.Suitable (K : Types C) (types : List C) : TypedRequest C R T → Prop
  | .call values => SuitAll K types (Enlist.of values).items
  | _ => True

open Classical in
/-- **C92, refused evaluations leave no trace.** Whatever a program asks, in any order, and whatever the callbacks do: if all evaluations with unsuitable values are left out, the other
requests have the same outcomes and the program ends in the same state. -/
theorem refused_calls_can_be_left_out [DecidableEq C] [Add T] [Add R] [Zero R] [Mul R] (K : Types C) (types : List C) (rf : RF R)
    (ht : types.length = rf.enlisted.items.length) (cb : Callbacks σ R T) (qs : List (TypedRequest C R T)) (w : World σ R T) :
    let kept := qs.filter fun q => q.Suitable K types
    (runTyped K types rf cb kept w).1 = ((qs.zip (runTyped K types rf cb qs w).1).filter fun p => p.1.Suitable K types).map Prod.snd ∧
    (runTyped K types rf cb kept w).2 = (runTyped K types rf cb qs w).2 := by
  induction qs generalizing w with
  | nil => exact ⟨rfl, rfl⟩
  | cons q qs ih =>
    dsimp only
    by_cases hq : q.Suitable K types
    · obtain ⟨h1, h2⟩ := ih (q.run K types rf cb w).2
      rw [List.filter_cons_of_pos (by simpa using hq)]
      simp only [runTyped, List.zip_cons_cons]
      rw [List.filter_cons_of_pos (by simpa using hq), List.map_cons, h1, h2]
      exact ⟨rfl, rfl⟩
    · have hw : (q.run K types rf cb w).2 = w := by
        cases q with
        | call values => exact (call_refused_iff K types rf ht cb values w).2.2.2 hq
        | derivative a => exact absurd trivial hq
        | hessian d => exact absurd trivial hq
      obtain ⟨h1, h2⟩ := ih w
      rw [List.filter_cons_of_neg (by simpa using hq)]
      simp only [runTyped, List.zip_cons_cons, hw]
      rw [List.filter_cons_of_neg (by simpa using hq)]
      exact ⟨h1, h2⟩

/-! ## Directions -/

section Wipe

variable {V A : Type*} (bs : Blocks V T A)

open Classical in
/-- A variable without tangent and Hessian value, if it is on the tape. -/
noncomputable def wipeVar (v : BV) (x : Var V T A) : Var V T A := if OnTape bs v then { x with tlm := none, hess := none } else x

/-- The variables without tangents and Hessian values on the tape. -/
noncomputable def wipe (h : Heap V T A) : Heap V T A := fun v => wipeVar bs v (h v)

theorem wipeVar_output (v : BV) (x : Var V T A) : (wipeVar bs v x).output = x.output := by unfold wipeVar; split <;> rfl
theorem wipeVar_ckpt (v : BV) (x : Var V T A) : (wipeVar bs v x).ckpt = x.ckpt := by unfold wipeVar; split <;> rfl
theorem wipeVar_adj (v : BV) (x : Var V T A) : (wipeVar bs v x).adj = x.adj := by unfold wipeVar; split <;> rfl
theorem wipeVar_isControl (v : BV) (x : Var V T A) : (wipeVar bs v x).isControl = x.isControl := by unfold wipeVar; split <;> rfl
theorem wipeVar_marked (v : BV) (x : Var V T A) : (wipeVar bs v x).marked = x.marked := by unfold wipeVar; split <;> rfl

theorem wipe_saved (h : Heap V T A) (v : BV) : saved (wipe bs h) v = saved h v := saved_congr (wipeVar_output bs v _) (wipeVar_ckpt bs v _)

theorem wipe_update (h : Heap V T A) (v : BV) (x : Var V T A) : Function.update (wipe bs h) v (wipeVar bs v x) = wipe bs (Function.update h v x) := by
  funext w
  unfold wipe
  by_cases hw : w = v
  · subst hw; rw [Function.update_self, Function.update_self]
  · rw [Function.update_of_ne hw, Function.update_of_ne hw]

theorem wipe_foldl {ι : Type*} (f : Heap V T A → ι → Heap V T A) (hf : ∀ h i, f (wipe bs h) i = wipe bs (f h i)) (l : List ι) (h : Heap V T A) :
    l.foldl f (wipe bs h) = wipe bs (l.foldl f h) := by
  induction l generalizing h with
  | nil => rfl
  | cons i l ih => rw [List.foldl_cons, List.foldl_cons, hf, ih]

theorem wipe_setCkpt (h : Heap V T A) (v : BV) (c : Option V) : setCkpt (wipe bs h) v c = wipe bs (setCkpt h v c) := by
  unfold setCkpt
  rw [show (wipe bs h v).isControl = (h v).isControl from wipeVar_isControl bs v _]
  split
  · rfl
  · rw [← wipe_update]
    congr 1
    unfold wipe wipeVar
    split <;> rfl

theorem wipe_markControls (cs : List BV) (m : Bool) (h : Heap V T A) : markControls cs m (wipe bs h) = wipe bs (markControls cs m h) := by
  refine wipe_foldl bs _ (fun h v => ?_) cs h
  rw [← wipe_update]
  congr 1
  unfold wipe wipeVar
  split <;> rfl

theorem wipe_markAll (l : List BV) (m : Bool) (h : Heap V T A) : markAll l m (wipe bs h) = wipe bs (markAll l m h) := by
  refine wipe_foldl bs _ (fun h v => ?_) l h
  rw [← wipe_update]
  congr 1
  unfold wipe wipeVar
  split <;> rfl

theorem wipe_relevant (h : Heap V T A) (m : Bool) (l : List BV) : relevant (wipe bs h) m l = relevant h m l := by
  unfold relevant
  exact List.filter_congr fun p _ => by rw [show (wipe bs h p.1).marked = (h p.1).marked from wipeVar_marked bs _ _]

theorem wipe_map_saved (h : Heap V T A) (l : List BV) : l.map (saved (wipe bs h)) = l.map (saved h) := List.map_congr_left fun v _ => wipe_saved bs h v

theorem wipe_recompute (b : Block V T A) (m : Bool) (h : Heap V T A) : b.recompute m (wipe bs h) = wipe bs (b.recompute m h) := by
  unfold Block.recompute
  dsimp only
  rw [show (b.outs.any fun o => (wipe bs h o).isControl) = b.outs.any fun o => (h o).isControl from
    congrArg (b.outs.any ·) (funext fun o => wipeVar_isControl bs o _), wipe_relevant, wipe_map_saved]
  split
  · rfl
  · split
    · rfl
    · refine wipe_foldl bs _ (fun h p => ?_) _ h
      unfold setCkpt?
      split
      · rfl
      · exact wipe_setCkpt bs _ _ _

theorem wipe_rfEval (cs : List BV) (xs : List V) (h : Heap V T A) : rfEval bs cs xs (wipe bs h) = wipe bs (rfEval bs cs xs h) := by
  unfold rfEval updateControls
  dsimp only
  rw [wipe_foldl bs _ (fun h p => wipe_setCkpt bs h _ _), wipe_markControls]
  unfold recompute
  rw [wipe_foldl bs _ (fun h b => wipe_recompute bs b false h), wipe_markControls]

theorem wipe_addAdj [Add A] (h : Heap V T A) (v : BV) (a : A) : addAdj (wipe bs h) v a = wipe bs (addAdj h v a) := by
  unfold addAdj
  rw [← wipe_update, show (wipe bs h v).adj = (h v).adj from wipeVar_adj bs v _]
  congr 1
  unfold wipe wipeVar
  split <;> rfl

theorem wipe_evaluateAdj [Add A] (b : Block V T A) (m : Bool) (h : Heap V T A) : b.evaluateAdj m (wipe bs h) = wipe bs (b.evaluateAdj m h) := by
  unfold Block.evaluateAdj
  dsimp only
  rw [show (b.outs.map fun o => (wipe bs h o).adj) = b.outs.map fun o => (h o).adj from List.map_congr_left fun o _ => wipeVar_adj bs o _,
    wipe_relevant, wipe_map_saved]
  split
  · rfl
  · split
    · rfl
    · refine wipe_foldl bs _ (fun h p => ?_) _ h
      unfold addAdj?
      split
      · rfl
      · exact wipe_addAdj bs _ _ _

theorem wipe_gradientState [Add A] (J : BV) (cs : List BV) (a : A) (h : Heap V T A) :
    computeGradientState bs J cs a (wipe bs h) = wipe bs (computeGradientState bs J cs a h) := by
  unfold computeGradientState markedAdjoint
  dsimp only
  have e1 : resetVariables bs .adjoint (wipe bs h) = wipe bs (resetVariables bs .adjoint h) := by
    classical
    funext v
    unfold wipe
    rw [resetVariables_apply, resetVariables_apply]
    unfold wipeVar
    split <;> rfl
  have e2 : ∀ h : Heap V T A, Function.update (wipe bs h) J { wipe bs h J with adj := some a } = wipe bs (Function.update h J { h J with adj := some a }) := by
    intro h
    rw [← wipe_update]
    congr 1
    unfold wipe wipeVar
    split <;> rfl
  rw [e1, e2, wipe_markAll, wipe_markControls]
  unfold evaluateAdj
  rw [wipe_foldl bs _ (fun h b => wipe_evaluateAdj bs b true h), wipe_markControls, wipe_markAll]

theorem wipe_gradient [Add A] [Zero A] (J : BV) (cs : List BV) (a : A) (h : Heap V T A) :
    computeGradient bs J cs a (wipe bs h) = ((computeGradient bs J cs a h).1, wipe bs (computeGradient bs J cs a h).2) := by
  unfold computeGradient
  dsimp only
  rw [wipe_gradientState]
  congr 1
  exact List.map_congr_left fun c _ => by unfold getDerivative; rw [show (wipe bs _ c).adj = _ from wipeVar_adj bs c _]

theorem resets_eq_wipe (h : Heap V T A) : resetVariables bs .hessian (resetVariables bs .tlm h) = wipe bs h := by
  classical
  funext v
  unfold wipe wipeVar
  rw [resetVariables_apply, resetVariables_apply]
  split <;> rfl

theorem wipe_wipe (h : Heap V T A) : wipe bs (wipe bs h) = wipe bs h := by
  funext v
  unfold wipe wipeVar
  split <;> rfl

theorem wipe_hessian [Add T] [Add A] [Zero A] (J : BV) (cs : List BV) (ds : List T) (h : Heap V T A) :
    computeHessianOf bs J cs ds (wipe bs h) = computeHessianOf bs J cs ds h := by
  unfold computeHessianOf
  dsimp only
  rw [resets_eq_wipe, resets_eq_wipe, wipe_wipe]

theorem wipe_seed (cs : List BV) (hcs : ∀ c ∈ cs, OnTape bs c) (ds : List T) (h : Heap V T A) : wipe bs (seedTlm cs ds h) = wipe bs h := by
  funext v
  obtain ⟨o, ho⟩ := seedTlm_frame cs ds h v
  unfold wipe wipeVar
  by_cases hv : OnTape bs v
  · rw [if_pos hv, if_pos hv, ho]
  · have hv' : v ∉ cs := fun hc => hv (hcs v hc)
    have : ∀ (l : List (BV × T)), (∀ p ∈ l, p.1 ≠ v) → ∀ h : Heap V T A,
        l.foldl (fun h p => Function.update h p.1 { h p.1 with tlm := some p.2 }) h v = h v := by
      intro l
      induction l with
      | nil => exact fun _ _ => rfl
      | cons p l ih =>
        intro hl h
        rw [List.foldl_cons, ih (fun q hq => hl q (List.mem_cons_of_mem _ hq)), Function.update_of_ne (hl p List.mem_cons_self).symm]
    rw [if_neg hv, if_neg hv]
    exact this _ (fun p hp e => hv' (e ▸ (List.of_mem_zip hp).1)) h

end Wipe

/-- The same state apart from tangents and Hessian values on the tape. -/
structure Alike (w w' : World σ R T) : Prop where
  blocks : w'.blocks = w.blocks
  enabled : w'.enabled = w.enabled
  user : w'.user = w.user
  heap : wipe w.blocks w'.heap = wipe w.blocks w.heap

/-- `f` returns the same, and leaves alike states, in alike states: it makes nothing of the tangents and Hessian values on the tape. -/
def Blind (f : Fn σ R T α) : Prop := ∀ w w', Alike w w' → (f w').1 = (f w).1 ∧ Alike (f w).2 (f w').2

theorem Blind.bind {f : Fn σ R T α} {g : α → Fn σ R T β} (hf : Blind f) (hg : ∀ a, Blind (g a)) : Blind (f.bind g) := by
  intro w w' h
  obtain ⟨h1, h2⟩ := hf w w' h
  unfold Fn.bind
  cases hx : f w with
  | mk r v =>
    cases hy : f w' with
    | mk r' v' =>
      rw [hx, hy] at h1 h2
      obtain rfl : r' = r := h1
      cases r' with
      | error e => exact ⟨rfl, h2⟩
      | ok a => exact hg a _ _ h2

theorem Blind.ofApi (r : Except ApiErr α) : Blind (ofApi r : Fn σ R T α) := by
  intro w w' h
  cases r <;> exact ⟨rfl, h⟩

theorem Blind.ok (a : α) : Blind (fun w => (.ok a, w) : Fn σ R T α) := fun _ _ h => ⟨rfl, h⟩

theorem Blind.noAnnotations {f : Fn σ R T α} (hf : Blind f) : Blind (noAnnotations f) := by
  intro w w' h
  obtain ⟨h1, h2⟩ := hf { w with enabled := false } { w' with enabled := false } ⟨h.blocks, rfl, h.user, h.heap⟩
  exact ⟨h1, h2.blocks, h.enabled, h2.user, h2.heap⟩

/-- Callbacks that make nothing of the tangents and Hessian values on the tape. -/
structure BlindCb (cb : Callbacks σ R T) : Prop where
  evalPre : ∀ a, Blind (cb.evalPre a)
  evalPost : ∀ y a, Blind (cb.evalPost y a)
  derivativePre : ∀ cs, Blind (cb.derivativePre cs)
  derivativePost : ∀ c ds vs, Blind (cb.derivativePost c ds vs)
  hessianPre : ∀ a, Blind (cb.hessianPre a)
  hessianPost : ∀ c r a, Blind (cb.hessianPost c r a)

theorem BlindCb.default : BlindCb (.default : Callbacks σ R T) :=
  ⟨fun _ => .ok _, fun _ _ => .ok _, fun _ => .ok _, fun _ _ _ => .ok _, fun _ => .ok _, fun _ _ _ => .ok _⟩

theorem BlindCb.init [Zero R] {cb : Callbacks σ R T} (h : BlindCb cb) (rf : RF R) : BlindCb (cb.init rf) := by
  unfold Callbacks.init
  split
  · exact h
  · exact h
  · exact { h with derivativePre := fun _ => .ofApi _, derivativePost := fun _ _ _ => .ofApi _ }

theorem Alike.saved {w w' : World σ R T} (h : Alike w w') (v : BV) : saved w'.heap v = saved w.heap v := by
  rw [← wipe_saved w.blocks w'.heap, h.heap, wipe_saved]

theorem Alike.ckpt {w w' : World σ R T} (h : Alike w w') (v : BV) : (w'.heap v).ckpt = (w.heap v).ckpt := by
  have := congrArg Var.ckpt (congrFun h.heap v)
  unfold wipe at this
  rwa [wipeVar_ckpt, wipeVar_ckpt] at this

theorem BlindCb.callFn [Mul R] {cb : Callbacks σ R T} (h : BlindCb cb) (rf : RF R) (values : Arg R) : Blind (callFn rf cb values) := by
  refine Blind.noAnnotations fun w w' hw => ?_
  dsimp only
  split
  · exact ⟨rfl, hw⟩
  · refine (Blind.ofApi _).bind (fun arg => (h.evalPre _).bind (fun _ w w' hw => ?_)) w w' hw
    have ha : Alike { w with heap := rfEval w.blocks rf.enlisted.items (Enlist.of values).items w.heap }
        { w' with heap := rfEval w'.blocks rf.enlisted.items (Enlist.of values).items w'.heap } := by
      refine ⟨hw.blocks, hw.enabled, hw.user, ?_⟩
      dsimp only
      rw [hw.blocks, ← wipe_rfEval, hw.heap, wipe_rfEval]
    have hs := ha.saved rf.J
    dsimp only at hs
    rw [hs]
    exact ((h.evalPost _ _).bind fun _ => .ok _) _ _ ha

theorem BlindCb.derivativeFn [Add R] [Zero R] [Mul R] {cb : Callbacks σ R T} (h : BlindCb cb) (rf : RF R) (a : R) : Blind (derivativeFn rf cb a) := by
  intro w w' hw
  unfold Cb.derivativeFn
  rw [show rf.enlisted.items.map (Pyadjoint.saved w'.heap) = rf.enlisted.items.map (Pyadjoint.saved w.heap) from List.map_congr_left fun v _ => hw.saved v]
  refine (h.derivativePre _).bind (fun sel v v' hv => ?_) w w' hw
  dsimp only
  split
  · exact ⟨rfl, hv⟩
  · have e := wipe_gradient v.blocks rf.J sel (a * rf.scale) v.heap
    have e' := wipe_gradient v.blocks rf.J sel (a * rf.scale) v'.heap
    rw [hv.heap, e] at e'
    have ha : Alike { v with heap := (computeGradient v.blocks rf.J sel (a * rf.scale) v.heap).2 }
        { v' with heap := (computeGradient v'.blocks rf.J sel (a * rf.scale) v'.heap).2 } := by
      refine ⟨hv.blocks, hv.enabled, hv.user, ?_⟩
      dsimp only
      rw [hv.blocks]
      exact (congrArg Prod.snd e').symm
    have h1 : (computeGradient v'.blocks rf.J sel (a * rf.scale) v'.heap).1 = (computeGradient v.blocks rf.J sel (a * rf.scale) v.heap).1 := by
      rw [hv.blocks]; exact (congrArg Prod.fst e').symm
    have hc := ha.ckpt rf.J
    dsimp only at hc
    rw [hc, h1]
    exact ((h.derivativePost _ _ _).bind fun ds => .ofApi _) _ _ ha

theorem BlindCb.hessianFn [Add T] [Add R] [Zero R] {cb : Callbacks σ R T} (h : BlindCb cb) (rf : RF R) (d : Arg T) : Blind (hessianFn rf cb d) := by
  refine Blind.noAnnotations fun w w' hw => ?_
  dsimp only
  rw [show rf.enlisted.items.map (Pyadjoint.saved w'.heap) = rf.enlisted.items.map (Pyadjoint.saved w.heap) from List.map_congr_left fun v _ => hw.saved v]
  refine (Blind.ofApi _).bind (fun values => (h.hessianPre _).bind (fun _ v v' hv => ?_)) w w' hw
  split
  · refine ⟨rfl, hv.blocks, hv.enabled, hv.user, ?_⟩
    dsimp only
    rw [hv.blocks, resets_eq_wipe, resets_eq_wipe, hv.heap]
  · have e : computeHessianOf v'.blocks rf.J rf.enlisted.items (Enlist.of d).items v'.heap =
        computeHessianOf v.blocks rf.J rf.enlisted.items (Enlist.of d).items v.heap := by
      rw [hv.blocks, ← wipe_hessian, hv.heap, wipe_hessian]
    rw [e]
    refine ((Blind.ofApi _).bind fun out => ?_) _ _ ⟨hv.blocks, hv.enabled, hv.user, rfl⟩
    exact (h.hessianPost _ _ _).bind fun _ => .ok _

theorem Alike.runAll [Add T] [Add R] [Zero R] [Mul R] {cb : Callbacks σ R T} (h : BlindCb cb) (rf : RF R) (qs : List (Request R T)) {w w' : World σ R T}
    (hw : Alike w w') : (runAll rf cb qs w').1 = (runAll rf cb qs w).1 ∧ Alike (runAll rf cb qs w).2 (runAll rf cb qs w').2 := by
  have key : ∀ {γ : Type _} (f : Fn σ R T γ) (k : γ → Answer R), Blind f → ∀ w w', Alike w w' →
      (f.answer k w').1 = (f.answer k w).1 ∧ Alike (f.answer k w).2 (f.answer k w').2 := by
    intro γ f k hf w w' hw
    obtain ⟨h1, h2⟩ := hf w w' hw
    unfold Fn.answer
    cases hx : f w with
    | mk r v =>
      cases hy : f w' with
      | mk r' v' =>
        rw [hx, hy] at h1 h2
        obtain rfl : r' = r := h1
        cases r' <;> exact ⟨rfl, h2⟩
  induction qs generalizing w w' with
  | nil => exact ⟨rfl, hw⟩
  | cons q qs ih =>
    have hq : (q.run rf cb w').1 = (q.run rf cb w).1 ∧ Alike (q.run rf cb w).2 (q.run rf cb w').2 := by
      cases q with
      | call values => exact key _ _ (h.callFn rf values) _ _ hw
      | derivative a => exact key _ _ (h.derivativeFn rf a) _ _ hw
      | hessian d => exact key _ _ (h.hessianFn rf d) _ _ hw
    obtain ⟨h1, h2⟩ := ih hq.2
    exact ⟨by unfold Cb.runAll; dsimp only; rw [hq.1, h1], h2⟩

/-- **C92, too many directions.** With more directions than controls a Hessian raises `IndexError`; and whatever is asked afterwards has the outcome it would have had without, for controls
on the tape and callbacks that make nothing of tangents and Hessian values.

Missing for the full claim: the refusal comes after `hessian_cb_pre` has run, and the tangents and Hessian values on the tape are changed. -/
theorem too_many_directions_partial [Add T] [Add R] [Zero R] [Mul R] {cb : Callbacks σ R T} (hcb : BlindCb cb)
    (hpre : ∀ a w, cb.hessianPre a w = (.ok (), w)) (rf : RF R) (d : Arg T) (w : World σ R T)
    (hd : rf.enlisted.items.length < (Enlist.of d).items.length) (hon : ∀ c ∈ rf.enlisted.items, OnTape w.blocks c) (qs : List (Request R T)) :
    ((hessianFn rf cb d w).1 = .error (.api .indexError)) ∧
    (runAll rf cb qs (hessianFn rf cb d w).2).1 = (runAll rf cb qs w).1 := by
  have e : hessianFn rf cb d w = (.error (.api .indexError),
      { w with heap := seedTlm rf.enlisted.items (Enlist.of d).items (resetVariables w.blocks .hessian (resetVariables w.blocks .tlm w.heap)) }) := by
    unfold hessianFn noAnnotations
    dsimp only
    rw [delist_shape rf (by rw [List.length_map])]
    simp only [ofApi, Fn.bind, hpre, hd, if_true]
  rw [e]
  have ha : Alike w
      { w with heap := seedTlm rf.enlisted.items (Enlist.of d).items (resetVariables w.blocks .hessian (resetVariables w.blocks .tlm w.heap)) } :=
    ⟨rfl, rfl, rfl, ?_⟩
  · exact ⟨rfl, (Alike.runAll hcb rf qs ha).1⟩
  dsimp only
  rw [wipe_seed w.blocks _ hon, resets_eq_wipe, wipe_wipe]

/-! ## Too few directions, and non-vacuity -/

/-- The product of two integers, with right derivatives. -/
def prodBlock : Block Int Int Int where
  deps := [0, 1]
  outs := [2]
  recomputeC := fun xs _ => match xs with
    | [x, y] => some (x * y)
    | _ => none
  adjC := fun xs ls i => match xs, ls with
    | [x, y], [some l] => some (if i = 0 then l * y else l * x)
    | _, _ => none
  tlmC := fun xs ts _ => match xs, ts with
    | [x, y], [s, t] => some (s.getD 0 * y + x * t.getD 0)
    | _, _ => none
  hessC := fun xs ms ls i ts => match xs, ms, ls with
    | [x, y], [some m], [some l] => some (if i = 0 then m * y + l * (((ts.lookup 1).join).getD 0) else m * x + l * (((ts.lookup 0).join).getD 0))
    | _, _, _ => none

/-- `J = x * y` with the controls `x = 3` and `y = 5`. -/
def prodRF : RF Int := { J := 2, controls := .list [0, 1], scale := 1 }

/-- The state after the program. -/
def prodWorld : World Unit Int Int := { heap := fun v => { output := if v = 0 then 3 else if v = 1 then 5 else 15 }, blocks := [prodBlock], enabled := true, user := () }

/-- **C92 fails for too few directions.** For `J = x * y` and the two controls: after an evaluation and a derivative, `rf.hessian([7])` is not refused.  It returns what `rf.hessian([7, 0])`
returns. -/
theorem too_few_directions :
    let qs : List (Request Int Int) := [.call (.list [3, 5]), .derivative 1]
    (runAll prodRF .default (qs ++ [.hessian (.list [7])]) prodWorld).1 = [.value 15, .derivatives (.many [5, 3]), .derivatives (.many [0, 7])] ∧
    (runAll prodRF .default (qs ++ [.hessian (.list [7, 0])]) prodWorld).1 = [.value 15, .derivatives (.many [5, 3]), .derivatives (.many [0, 7])] :=
  ⟨rfl, rfl⟩

/-- Classes: `0` is `AdjFloat`, `1` is `float`, `2` is `str`; `AdjFloat` is a subclass of `float`. -/
def threeClasses : Types Nat where
  isinstance v c := v = c ∨ (v = 0 ∧ c = 1)
  number v := v = 0 ∨ v = 1
  adjFloat := 0

/-- The hypotheses of the theorems can be met: for two controls a list of one value, a list with a string, and a suitable list. -/
example : (typedCall threeClasses [0, 0] prodRF .default (.list [⟨1, 3⟩]) prodWorld).1 = .wrongNumber ∧
    (typedCall threeClasses [0, 0] prodRF .default (.list [⟨1, 3⟩, ⟨2, 5⟩]) prodWorld).1 = .wrongType (some 1) ∧
    (typedCall threeClasses [0, 0] prodRF .default (.list [⟨1, 3⟩, ⟨0, 5⟩]) prodWorld).1 = .ran (.value 15) ∧
    [0, 0].length = prodRF.enlisted.items.length := ⟨rfl, rfl, rfl, rfl⟩

/-- The hypotheses of `too_many_directions_partial` can be met. -/
example : BlindCb (.default : Callbacks Unit Int Int) ∧ prodRF.enlisted.items.length < (Enlist.of (.list [7, 0, 1] : Arg Int)).items.length ∧
    ∀ c ∈ prodRF.enlisted.items, OnTape prodWorld.blocks c := by
  refine ⟨.default, by decide, fun c hc => ⟨prodBlock, List.mem_cons_self, Or.inl ?_⟩⟩
  exact hc

end Cb
end Pyadjoint
