import Verif.Model.Minimize
import Verif.Proofs.Scale
import Verif.Props.Hessian
import Verif.Props.ReducedApi

/-!
# `scale`, `maximize`, and the Hessian after a derivative (C20, C53, C21)
-/

namespace Pyadjoint

/-! ### Sweeps do not read Hessian values -/

/-- The heap without Hessian values. -/
def noHess (h : FHeap) : FHeap := fun v => { h v with hess := none }

theorem noHess_update (h : FHeap) (v : BV) (x : Var ℝ ℝ ℝ) :
    noHess (Function.update h v x) = Function.update (noHess h) v { x with hess := none } := by
  funext w
  by_cases hw : w = v
  · subst hw; simp [noHess]
  · simp [noHess, Function.update_of_ne hw]

theorem noHess_resetAdj (bs : Blocks ℝ ℝ ℝ) (h : FHeap) :
    noHess (resetVariables bs .adjoint h) = resetVariables bs .adjoint (noHess h) := by
  funext v
  unfold noHess
  rw [resetVariables_apply, resetVariables_apply]
  split <;> rfl

theorem noHess_markAll (ns : List BV) (m : Bool) (h : FHeap) :
    noHess (markAll ns m h) = markAll ns m (noHess h) := by
  unfold markAll
  induction ns generalizing h with
  | nil => rfl
  | cons n ns ih => simp only [List.foldl_cons]; rw [ih, noHess_update]; rfl

theorem noHess_markControls (ns : List BV) (m : Bool) (h : FHeap) :
    noHess (markControls ns m h) = markControls ns m (noHess h) := by
  unfold markControls
  induction ns generalizing h with
  | nil => rfl
  | cons n ns ih => simp only [List.foldl_cons]; rw [ih, noHess_update]; rfl

theorem noHess_addAdj? (h : FHeap) (v : BV) (a : Option ℝ) :
    noHess (addAdj? h v a) = addAdj? (noHess h) v a := by
  cases a with
  | none => rfl
  | some a => 
    show noHess (addAdj h v a) = addAdj (noHess h) v a
    unfold addAdj
    rw [noHess_update]; rfl

theorem noHess_blockAdj (b : Block ℝ ℝ ℝ) (m : Bool) (h : FHeap) :
    noHess (b.evaluateAdj m h) = b.evaluateAdj m (noHess h) := by
  unfold Block.evaluateAdj
  simp only []
  have h1 : (b.outs.map fun o => (noHess h o).adj) = b.outs.map fun o => (h o).adj := rfl
  have h2 : b.deps.map (saved (noHess h)) = b.deps.map (saved h) := rfl
  have h3 : relevant (noHess h) m b.deps = relevant h m b.deps := rfl
  rw [h1, h2, h3]
  split
  · rfl
  · split
    · rfl
    · generalize relevant h m b.deps = l
      generalize b.deps.map (saved h) = ins
      generalize (b.outs.map fun o => (h o).adj) = adjs
      clear h1 h2 h3
      rename_i ha hb; clear ha hb
      induction l generalizing h with
      | nil => rfl
      | cons p l ih => simp only [List.foldl_cons]; rw [ih, noHess_addAdj?]

theorem noHess_evaluateAdj (bs : Blocks ℝ ℝ ℝ) (m : Bool) (h : FHeap) :
    noHess (evaluateAdj bs m h) = evaluateAdj bs m (noHess h) := by
  induction bs with
  | nil => rfl
  | cons b bs ih => rw [evaluateAdj_cons, evaluateAdj_cons, noHess_blockAdj, ih]

theorem noHess_computeGradientState (bs : Blocks ℝ ℝ ℝ) (J : BV) (cs : List BV) (seed : ℝ) (h : FHeap) :
    noHess (computeGradientState bs J cs seed h) = computeGradientState bs J cs seed (noHess h) := by
  unfold computeGradientState markedAdjoint
  simp only []
  rw [noHess_markAll, noHess_markControls, noHess_evaluateAdj, noHess_markControls, noHess_markAll,
    noHess_update, noHess_resetAdj]
  congr 6
  rw [← noHess_resetAdj]
  rfl

/-- The whole state, up to Hessian values, after `compute_gradient` with a multiple of a seed. -/
theorem noHess_computeGradientState_scale (t : FTape) (J : BV) (cs : List BV) (r seed : ℝ) (h : FHeap) :
    noHess (computeGradientState t.blocks J cs (r * seed) h)
      = scaleOn (fun v => OnTape t.blocks v ∨ v = J) r
          (noHess (computeGradientState t.blocks J cs seed h)) := by
  rw [noHess_computeGradientState, computeGradientState_scale r t J cs seed (noHess h) (fun _ => rfl),
    noHess_computeGradientState]

/-- The adjoint values after `compute_gradient` with a multiple of a seed. -/
theorem computeGradientState_adj_scale (t : FTape) (J : BV) (cs : List BV) (r seed : ℝ) (h : FHeap)
    (v : BV) (hv : OnTape t.blocks v ∨ v = J) :
    (computeGradientState t.blocks J cs (r * seed) h v).adj
      = (computeGradientState t.blocks J cs seed h v).adj.map (r * ·) := by
  have := congrArg Var.adj (congrFun (noHess_computeGradientState_scale t J cs r seed h) v)
  rw [scaleOn_pos _ r hv] at this
  exact this

theorem evaluateAdj_off_tape {V T A : Type*} [Add A] (bs : Blocks V T A) (m : Bool) (h : Heap V T A) (v : BV) (hv : ¬ OnTape bs v) :
    (evaluateAdj bs m h v).adj = (h v).adj := by
  induction bs with
  | nil => rfl
  | cons b bs ih =>
    rw [evaluateAdj_cons, Block.evaluateAdj_apply]
    show b.adjAfter m (evaluateAdj bs m h) v = _
    have ih := ih (fun ⟨b', hb', h'⟩ => hv ⟨b', List.mem_cons_of_mem _ hb', h'⟩)
    unfold Block.adjAfter
    rw [entries_nil_of_not_mem (fun hd => hv ⟨b, List.mem_cons_self, Or.inl hd⟩)]
    simp only [List.foldl_nil, ite_self]
    exact ih

theorem computeGradientState_off_tape {V T A : Type*} [Add A] (bs : Blocks V T A) (J : BV) (cs : List BV) (seed : A) (h : Heap V T A)
    (v : BV) (hv : ¬ OnTape bs v) (hJ : v ≠ J) :
    (computeGradientState bs J cs seed h v).adj = (h v).adj := by
  unfold computeGradientState markedAdjoint
  simp only [markAll_adj, markControls_adj]
  rw [evaluateAdj_off_tape bs _ _ v hv]
  simp only [markAll_adj, markControls_adj]
  rw [Function.update_of_ne hJ, resetVariables_apply, if_neg hv]

theorem computeGradientState_hess (bs : Blocks ℝ ℝ ℝ) (J : BV) (cs : List BV) (seed : ℝ) (h : FHeap)
    (v : BV) : (computeGradientState bs J cs seed h v).hess = (h v).hess := by
  unfold computeGradientState markedAdjoint
  simp only [markAll_hess, markControls_hess, evaluateAdj_hess]
  by_cases hJ : v = J
  · subst hJ; simp
  · rw [Function.update_of_ne hJ]; simp

/-- `compute_hessian` forgets earlier Hessian values of the tape. -/
theorem computeHessian_resetHess (t : FTape) (J : BV) (cs : List BV) (ds : List ℝ) (h : FHeap) :
    t.computeHessian J cs ds (resetVariables t.blocks .hessian h) = t.computeHessian J cs ds h := by
  have e : resetVariables t.blocks .hessian (resetVariables t.blocks .tlm
        (resetVariables t.blocks .hessian h))
      = resetVariables t.blocks .hessian (resetVariables t.blocks .tlm h) := by
    funext v
    simp only [resetVariables_apply]
    split <;> rfl
  unfold FTape.computeHessian
  simp only []
  rw [e]

/-- The Hessian action is homogeneous in the seed of the adjoint run before it. -/
theorem computeHessian_after_gradient_scale (t : FTape) (J' J : BV) (cs' cs : List BV) (ds : List ℝ)
    (r seed : ℝ) (h : FHeap) (hJ' : OnTape t.blocks J') (hJ : OnTape t.blocks J)
    (hon : ∀ c ∈ cs, OnTape t.blocks c ∨ ((h c).adj = none ∧ (h c).hess = none)) :
    (t.computeHessian J cs ds (computeGradientState t.blocks J' cs' (r * seed) h)).map (·.1)
      = (t.computeHessian J cs ds (computeGradientState t.blocks J' cs' seed h)).map
          fun p => p.1.map (r * ·) := by
  set P : BV → Prop := fun v => OnTape t.blocks v ∨ v ∈ cs with hP
  have e : resetVariables t.blocks .hessian (computeGradientState t.blocks J' cs' (r * seed) h)
      = scaleOn P r (resetVariables t.blocks .hessian (computeGradientState t.blocks J' cs' seed h)) := by
    funext v
    have key := congrFun (noHess_computeGradientState_scale t J' cs' r seed h) v
    have k1 := computeGradientState_hess t.blocks J' cs' (r * seed) h v
    have k2 := computeGradientState_hess t.blocks J' cs' seed h v
    have k3 := computeGradientState_off_tape t.blocks J' cs' seed h v
    generalize computeGradientState t.blocks J' cs' (r * seed) h = X at *
    generalize computeGradientState t.blocks J' cs' seed h = Y at *
    have hX : X v = { noHess X v with hess := (X v).hess } := rfl
    have hY : Y v = { noHess Y v with hess := (Y v).hess } := rfl
    by_cases hv : OnTape t.blocks v
    · rw [scaleOn_pos P r (Or.inl hv), resetVariables_apply, resetVariables_apply, if_pos hv, if_pos hv]
      rw [scaleOn_pos _ r (Or.inl hv)] at key
      rw [hX, key]
      rfl
    · have hvJ : v ≠ J' := by rintro rfl; exact hv hJ'
      unfold scaleOn
      rw [resetVariables_apply, resetVariables_apply, if_neg hv, if_neg hv]
      rw [scaleOn_neg _ r (by rintro (h' | h') <;> contradiction)] at key
      have hXY : X v = Y v := by rw [hX, hY, key, k1, k2]
      split
      · rename_i hp
        have hc : v ∈ cs := hp.resolve_left hv
        obtain ⟨h1, h2⟩ := (hon v hc).resolve_left hv
        have k3 := k3 hv hvJ
        rw [hXY]
        unfold scaleVar
        rw [k2, k3, h1, h2]
        generalize Y v = y at *
        cases y
        simp only at k2 k3
        simp only [Option.map_none, k2, k3, h1, h2]
      · exact hXY
  rw [← computeHessian_resetHess, e, FTape.computeHessian_scaleOn P r t J cs ds (fun v hv => Or.inl hv)
    (Or.inl hJ), computeHessian_resetHess]
  generalize hk : computeGradientState t.blocks J' cs' seed h = k
  cases hc : t.computeHessian J cs ds k with
  | error e => rfl
  | ok p =>
    have hp : p.1 = cs.map (getHessian p.2) := by
      rw [computeHessian_eq] at hc
      cases h2 : t.evaluateHessian true (preHess t J cs ds k) with
      | error e => rw [h2] at hc; cases hc
      | ok g => rw [h2] at hc; cases hc; rfl
    show Except.ok (cs.map (getHessian (scaleOn P r p.2))) = Except.ok (p.1.map (r * ·))
    rw [hp, List.map_map]
    congr 1
    apply List.map_congr_left
    intro c hc
    show getHessian (scaleOn P r p.2) c = r * getHessian p.2 c
    unfold getHessian
    rw [scaleOn_pos P r (Or.inr hc)]
    unfold scaleVar
    cases (p.2 c).hess <;> simp

/-! ### The reduced functional -/

/-- Applying a function to what a driver returns. -/
def Ret.map {α β : Type*} (f : α → β) : Ret α → Ret β
  | .one a => .one (f a)
  | .many l => .many (l.map f)

theorem Enlist.delist_map {α β γ : Type*} (e : Enlist α) (f : β → γ) (y : List β) :
    e.delist (y.map f) = (e.delist y).map (Ret.map f) := by
  unfold Enlist.delist
  split
  · rfl
  · rcases y with _ | ⟨a, _ | ⟨b, y⟩⟩ <;> rfl

theorem packLoop_map (r : ℝ) (is : List Int) (ds : List ℝ) (cs : List BV) (i n : Nat) :
    packLoop is (ds.map (r * ·)) cs i n = (packLoop is ds cs i n).map (List.map (r * ·)) := by
  induction cs generalizing i n with
  | nil => rfl
  | cons c cs ih =>
    unfold packLoop
    split
    · rw [ih, List.getElem?_map]
      cases ds[n]? <;> cases packLoop is ds cs (i + 1) (n + 1) <;> rfl
    · rw [ih]
      cases packLoop is ds cs (i + 1) n <;> simp

theorem packComponents_map (r : ℝ) (controls : Arg BV) (is : List Int) (ds : List ℝ) :
    packComponents controls is (ds.map (r * ·)) = (packComponents controls is ds).map (List.map (r * ·)) := by
  unfold packComponents
  split
  · rfl
  all_goals
    rw [packLoop_map]
    cases packLoop is ds _ 0 0 <;> rfl

theorem finishDerivative_map (r : ℝ) (e : Enlist BV) (ds : List ℝ) :
    finishDerivative e (ds.map (r * ·)) = (finishDerivative e ds).map (Ret.map (r * ·)) := by
  unfold finishDerivative
  rw [List.isEmpty_map]
  split
  · rfl
  · exact Enlist.delist_map e _ ds

theorem computeGradient_scale (t : FTape) (J : BV) (cs : List BV) (r seed : ℝ) (h : FHeap)
    (hon : ∀ c ∈ cs, OnTape t.blocks c ∨ c = J ∨ (h c).adj = none) :
    (computeGradient t.blocks J cs (r * seed) h).1
      = (computeGradient t.blocks J cs seed h).1.map (r * ·) := by
  unfold computeGradient
  simp only [List.map_map]
  apply List.map_congr_left
  intro c hc
  show getDerivative _ c = r * getDerivative _ c
  unfold getDerivative
  by_cases hv : OnTape t.blocks c ∨ c = J
  · rw [computeGradientState_adj_scale t J cs r seed h c hv]
    cases (computeGradientState t.blocks J cs seed h c).adj <;> simp
  · have h0 : (h c).adj = none := by
      rcases hon c hc with h' | h' | h'
      · exact absurd (Or.inl h') hv
      · exact absurd (Or.inr h') hv
      · exact h'
    push Not at hv
    rw [computeGradientState_off_tape t.blocks J cs _ h c hv.1 hv.2,
      computeGradientState_off_tape t.blocks J cs _ h c hv.1 hv.2, h0]
    simp

theorem extractComponents_subset {cs sel : List BV} {is : List Int} (h : extractComponents cs is = some sel) :
    ∀ c ∈ sel, c ∈ cs := by
  unfold extractComponents at h
  induction is generalizing sel with
  | nil => cases h; simp
  | cons i is ih =>
    rw [List.mapM_cons] at h
    cases h1 : pyIndex cs i with
    | none => rw [h1] at h; cases h
    | some a =>
      cases h2 : is.mapM (pyIndex cs) with
      | none => rw [h1, h2] at h; cases h
      | some l =>
        rw [h1, h2] at h
        cases h
        intro c hc
        rcases List.mem_cons.1 hc with rfl | hc
        · unfold pyIndex at h1
          split at h1
          · exact List.mem_of_getElem? h1
          · split at h1
            · exact List.mem_of_getElem? h1
            · cases h1
        · exact ih h2 c hc

/-- **C20, value.** A reduced functional with factor `scale = s` returns `s` times the value of the
unscaled one and leaves the same state behind, or raises the same exception, for every tape and every
argument. -/
theorem value_scaled (rf : RF ℝ) (t : FTape) (s : ℝ) (values : Arg ℝ) (h : FHeap) :
    RF.call { rf with scale := s } t.blocks values h
      = (RF.call { rf with scale := (1 : ℝ) } t.blocks values h).map fun p => (s * p.1, p.2) := by
  unfold RF.call rfCall
  simp only []
  split
  · rename_i hx
    split at hx
    · rename_i hl
      rw [show RF.enlisted { rf with scale := s } = RF.enlisted { rf with scale := (1 : ℝ) } from rfl] at hl
      rw [if_pos hl]; rfl
    · cases hx
  · rename_i r hx
    split at hx
    · cases hx
    · rename_i hl
      rw [show RF.enlisted { rf with scale := s } = RF.enlisted { rf with scale := (1 : ℝ) } from rfl] at hl
      rw [if_neg hl]
      cases hx
      simp only [Except.map]
      congr 2
      rw [mul_one, mul_comm]; rfl

/-- **C20, gradient.** `rf.derivative()` with factor `scale = s` returns `s` times the derivative of the
unscaled reduced functional, with or without derivative components, or raises the same exception. -/
theorem derivative_scaled (rf : RF ℝ) (t : FTape) (s adjInput : ℝ) (h : FHeap)
    (hon : ∀ c ∈ rf.enlisted.items, OnTape t.blocks c ∨ c = rf.J ∨ (h c).adj = none) :
    (RF.derivative { rf with scale := s } t.blocks adjInput h).1
      = (RF.derivative { rf with scale := (1 : ℝ) } t.blocks adjInput h).1.map (Ret.map (s * ·)) := by
  have key : ∀ cs, (∀ c ∈ cs, c ∈ rf.enlisted.items) →
      (computeGradient t.blocks rf.J cs (adjInput * s) h).1
        = (computeGradient t.blocks rf.J cs (adjInput * 1) h).1.map (s * ·) := by
    intro cs hcs
    rw [mul_comm adjInput s, mul_one]
    exact computeGradient_scale t rf.J cs s adjInput h (fun c hc => hon c (hcs c hc))
  obtain ⟨J, controls, comps, sc⟩ := rf
  unfold RF.derivative
  simp only []
  rcases comps with _ | _ | ⟨i, is⟩
  · show (if (Enlist.of controls).items.isEmpty then _ else _ : Except ApiErr (Ret ℝ) × FHeap).1
      = (if (Enlist.of controls).items.isEmpty then _ else _ : Except ApiErr (Ret ℝ) × FHeap).1.map _
    split
    · rfl
    · show finishDerivative _ _ = (finishDerivative _ _).map _
      rw [← finishDerivative_map]
      congr 1
      exact key _ (fun c hc => hc)
  · show (if (Enlist.of controls).items.isEmpty then _ else _ : Except ApiErr (Ret ℝ) × FHeap).1
      = (if (Enlist.of controls).items.isEmpty then _ else _ : Except ApiErr (Ret ℝ) × FHeap).1.map _
    split
    · rfl
    · show finishDerivative _ _ = (finishDerivative _ _).map _
      rw [← finishDerivative_map]
      congr 1
      exact key _ (fun c hc => hc)
  · simp only [RF.enlisted] at key ⊢
    cases hx : extractComponents (Enlist.of controls).items (i :: is) with
    | none => rfl
    | some sel =>
      simp only []
      rw [key sel (extractComponents_subset hx), packComponents_map]
      cases packComponents controls (i :: is) (computeGradient t.blocks J sel (adjInput * 1) h).1 with
      | error e => rfl
      | ok ds => 
        show finishDerivative _ _ = (finishDerivative _ _).map _
        rw [← finishDerivative_map]

/-- The heap after `derivative()` that did not raise before the sweep is that of a gradient
computation. -/
theorem derivative_heap (rf : RF ℝ) (bs : Blocks ℝ ℝ ℝ) (adjInput : ℝ) (h : FHeap)
    (hne : rf.enlisted.items ≠ []) (hcomp : rf.components = none) :
    (rf.derivative bs adjInput h).2
      = computeGradientState bs rf.J rf.enlisted.items (adjInput * rf.scale) h := by
  unfold RF.derivative
  rw [hcomp]
  simp only []
  rw [if_neg (by simpa using hne)]
  rfl

/-- **C53.** Whatever reduced functional `rf'` on the tape computed its derivative last, with factor
`scale = s`, `rf.hessian(d)` returns (or raises) `s` times what it returns if `rf'` was unscaled: the
factor that counts is that of the last derivative. -/
theorem hessian_scaled_by_last_derivative (rf rf' : RF ℝ) (t : FTape) (s adjInput : ℝ) (mDot : Arg ℝ)
    (h : FHeap) (hne : rf'.enlisted.items ≠ []) (hcomp : rf'.components = none)
    (hJ' : OnTape t.blocks rf'.J) (hJ : OnTape t.blocks rf.J)
    (hon : ∀ c ∈ rf.enlisted.items, OnTape t.blocks c ∨ ((h c).adj = none ∧ (h c).hess = none)) :
    (rf.hessian t mDot (RF.derivative { rf' with scale := s } t.blocks adjInput h).2).map (·.1)
      = (rf.hessian t mDot (RF.derivative { rf' with scale := (1 : ℝ) } t.blocks adjInput h).2).map
          fun p => p.1.map (s * ·) := by
  have e1 := derivative_heap { rf' with scale := s } t.blocks adjInput h hne hcomp
  have e2 := derivative_heap { rf' with scale := (1 : ℝ) } t.blocks adjInput h hne hcomp
  rw [e1, e2]
  have key := computeHessian_after_gradient_scale t rf'.J rf.J rf'.enlisted.items rf.enlisted.items
    (Enlist.of mDot).items s adjInput h hJ' hJ hon
  unfold RF.hessian
  simp only []
  split
  · rfl
  · rw [mul_one, mul_comm adjInput s]
    rw [show RF.enlisted { rf' with scale := s } = rf'.enlisted from rfl,
      show RF.enlisted { rf' with scale := (1 : ℝ) } = rf'.enlisted from rfl]
    generalize t.computeHessian rf.J rf.enlisted.items (Enlist.of mDot).items
      (computeGradientState t.blocks rf'.J rf'.enlisted.items (s * adjInput) h) = X at *
    generalize t.computeHessian rf.J rf.enlisted.items (Enlist.of mDot).items
      (computeGradientState t.blocks rf'.J rf'.enlisted.items adjInput h) = Y at *
    rcases X with ⟨⟨⟩⟩ | ⟨x, hx⟩ <;> rcases Y with ⟨⟨⟩⟩ | ⟨y, hy⟩
    · rfl
    · cases key
    · cases key
    · have hxy : x = y.map (s * ·) := by
        have := key; simp only [Except.map] at this; exact Except.ok.inj this
      subst hxy
      simp only [Enlist.delist_map]
      cases rf.enlisted.delist y <;> rfl

/-- **C20, Hessian, part.** Directly after its own derivative, `rf.hessian(d)` with factor `scale = s`
returns `s` times the Hessian action of the unscaled reduced functional after its own derivative, or
raises the same exception.  The proviso cannot be dropped: `hessian_scale_missing`. -/
theorem hessian_scaled_partial (rf : RF ℝ) (t : FTape) (s adjInput : ℝ) (mDot : Arg ℝ) (h : FHeap)
    (hne : rf.enlisted.items ≠ []) (hcomp : rf.components = none) (hJ : OnTape t.blocks rf.J)
    (hon : ∀ c ∈ rf.enlisted.items, OnTape t.blocks c ∨ ((h c).adj = none ∧ (h c).hess = none)) :
    (RF.hessian { rf with scale := s } t mDot
        (RF.derivative { rf with scale := s } t.blocks adjInput h).2).map (·.1)
      = (RF.hessian { rf with scale := (1 : ℝ) } t mDot
          (RF.derivative { rf with scale := (1 : ℝ) } t.blocks adjInput h).2).map
            fun p => p.1.map (s * ·) :=
  hessian_scaled_by_last_derivative { rf with scale := s } rf t s adjInput mDot h hne hcomp hJ hJ hon

/-- The tape of `J = x * x`. -/
def sqTape : FTape := [.bin .mul 0 0 1]

theorem sqTape_wf : WF sqTape.blocks := by
  refine ⟨?_, ?_, ?_⟩
  · intro b hb
    simp only [FTape.blocks, sqTape, List.map_cons, List.map_nil, List.mem_cons, List.not_mem_nil,
      or_false] at hb
    subst hb
    simp [FBlock.toBlock]
  · simp [FTape.blocks, sqTape, FBlock.toBlock]
  · simp [FTape.blocks, sqTape, FBlock.toBlock]

/-- The tape of `J = x * x`, `K = J + J`. -/
def sqTape2 : FTape := [.bin .mul 0 0 1, .bin .add 1 1 2]

/-- `ReducedFunctional(J, Control(x), scale)` on these tapes. -/
noncomputable def sqRF (scale : ℝ) : RF ℝ := { J := 1, controls := .single 0, scale := scale }

example : OnTape sqTape.blocks (sqRF 3).J ∧ (sqRF 3).enlisted.items ≠ [] ∧
    ∀ c ∈ (sqRF 3).enlisted.items, OnTape sqTape.blocks c := by
  refine ⟨⟨_, List.mem_cons_self, Or.inr (by exact List.mem_singleton.2 rfl)⟩, by simp [sqRF, RF.enlisted, Enlist.of], ?_⟩
  intro c hc
  have : c = 0 := by simpa [sqRF, RF.enlisted, Enlist.of] using hc
  subst this
  exact ⟨_, List.mem_cons_self, Or.inl (by exact List.mem_cons_self)⟩

/-- **C20 fails for the Hessian in general.** `J = x²` with `scale = 3`: if another (unscaled) reduced
functional of the same tape computed the last derivative, `rf.hessian(d)` is `2d` and not `6d`. -/
theorem hessian_scale_missing (x d : ℝ) :
    let h := (sqRF 1).derivative sqTape.blocks 1 (rfEval sqTape.blocks [0] [x] unitHeap)
    ((sqRF 3).hessian sqTape (.single d) h.2).map (·.1) = .ok (.one (2 * d)) ∧
    ((sqRF 3).hessian sqTape (.single d) ((sqRF 3).derivative sqTape.blocks 1 h.2).2).map (·.1)
      = .ok (.one (6 * d)) := by
  intro h
  constructor
  · have : ∃ r, ((sqRF 3).hessian sqTape (.single d) h.2).map (·.1) = .ok (.one r) ∧ r = 2 * d := by
      refine ⟨_, rfl, ?_⟩
      show (((1 : ℝ) * 1) * d + 0 * x) + ((1 * 1) * d + 0 * x) = _
      ring
    obtain ⟨r, h1, rfl⟩ := this
    exact h1
  · have : ∃ r, ((sqRF 3).hessian sqTape (.single d)
        ((sqRF 3).derivative sqTape.blocks 1 h.2).2).map (·.1) = .ok (.one r) ∧ r = 6 * d := by
      refine ⟨_, rfl, ?_⟩
      show (((1 : ℝ) * 3) * d + 0 * x) + ((1 * 3) * d + 0 * x) = _
      ring
    obtain ⟨r, h1, rfl⟩ := this
    exact h1

/-- **C53, other functionals.** `J = x²`, `K = J + J`, both unscaled.  `rf_J.hessian(d)` is `2d` after
`rf_J.derivative()` and `4d` after `rf_K.derivative()`. -/
theorem hessian_after_other_derivative (x d : ℝ) :
    let h := rfEval sqTape2.blocks [0] [x] unitHeap
    ((sqRF 1).hessian sqTape2 (.single d) ((sqRF 1).derivative sqTape2.blocks 1 h).2).map (·.1)
      = .ok (.one (2 * d)) ∧
    ((sqRF 1).hessian sqTape2 (.single d)
        (RF.derivative { sqRF 1 with J := 2 } sqTape2.blocks 1 h).2).map (·.1)
      = .ok (.one (4 * d)) := by
  intro h
  constructor
  · have : ∃ r, ((sqRF 1).hessian sqTape2 (.single d)
        ((sqRF 1).derivative sqTape2.blocks 1 h).2).map (·.1) = .ok (.one r) ∧ r = 2 * d := by
      refine ⟨_, rfl, ?_⟩
      show (((1 : ℝ) * 1) * d + 0 * x) + ((1 * 1) * d + 0 * x) = _
      ring
    obtain ⟨r, h1, rfl⟩ := this
    exact h1
  · have : ∃ r, ((sqRF 1).hessian sqTape2 (.single d)
        (RF.derivative { sqRF 1 with J := 2 } sqTape2.blocks 1 h).2).map (·.1) = .ok (.one r) ∧
          r = 4 * d := by
      refine ⟨_, rfl, ?_⟩
      show (((1 : ℝ) * 1 + 1 * 1) * d + 0 * x) + ((1 * 1 + 1 * 1) * d + 0 * x) = _
      ring
    obtain ⟨r, h1, rfl⟩ := this
    exact h1

/-! ### The Hessian leaves everything else alone (C21) -/

theorem computeHessian_frame (t : FTape) (hself : ∀ b ∈ t, b.out ∉ b.deps) (J : BV) (cs : List BV)
    (ds : List ℝ) (h : FHeap) (hmk : ∀ v, (h v).marked = false) (r : List ℝ) (h' : FHeap)
    (hok : t.computeHessian J cs ds h = .ok (r, h')) (v : BV) :
    ∃ a b, h' v = { h v with tlm := a, hess := b } := by
  rw [computeHessian_eq] at hok
  cases h2 : t.evaluateHessian true (preHess t J cs ds h) with
  | error e => rw [h2] at hok; cases hok
  | ok g =>
    rw [h2] at hok
    cases hok
    obtain ⟨b, hb⟩ := FTape.evaluateHessian_frame t true _ g h2 v
    rw [markAll_apply, hb]
    unfold preHess
    simp only []
    set nodes := findRelevantNodes t.blocks cs
    obtain ⟨a₁, ha₁⟩ := seedTlm_frame cs ds
      (resetVariables t.blocks .hessian (resetVariables t.blocks .tlm h)) v
    set h₁ := seedTlm cs ds (resetVariables t.blocks .hessian (resetVariables t.blocks .tlm h))
    obtain ⟨a₂, ha₂⟩ := FTape.evaluateTlm_frame t true (markAll nodes true h₁) v hself
    have hr : ∃ a b, resetVariables t.blocks .hessian (resetVariables t.blocks .tlm h) v
        = { h v with tlm := a, hess := b } := by
      rw [resetVariables_apply, resetVariables_apply]
      split
      · exact ⟨_, _, rfl⟩
      · exact ⟨_, _, rfl⟩
    obtain ⟨a₀, b₀, hr⟩ := hr
    have hm := hmk v
    have hJ : ∀ X : FHeap, ∃ c, Function.update X J { X J with hess := some 0 } v = { X v with hess := c } := by
      intro X
      by_cases hv : v = J
      · subst hv; exact ⟨some 0, by simp⟩
      · exact ⟨(X v).hess, by rw [Function.update_of_ne hv]⟩
    obtain ⟨c, hc⟩ := hJ (markAll nodes false (t.evaluateTlm true (markAll nodes true h₁)))
    refine ⟨a₂, b, ?_⟩
    rw [markAll_apply, hc, markAll_apply, ha₂, markAll_apply, ha₁, hr]
    cases hx : h v with
    | mk o a t hs c ic mk cr lu =>
      rw [hx] at hm
      simp only at hm
      subst hm
      by_cases m1 : v ∈ nodes <;> simp [m1]

/-- **C21, Hessian.** A call of `hessian(d)` that returns changes tangent and Hessian values, and
nothing else: no output, no saved value, no control or path marking, no adjoint value. -/
theorem hessian_undisturbed (rf : RF ℝ) (t : FTape) (wf : WF t.blocks) (mDot : Arg ℝ) (h : FHeap)
    (hmk : ∀ v, (h v).marked = false) (r : Ret ℝ) (h' : FHeap)
    (hok : rf.hessian t mDot h = .ok (r, h')) (v : BV) :
    ∃ a b, h' v = { h v with tlm := a, hess := b } := by
  unfold RF.hessian at hok
  simp only [] at hok
  split at hok
  · cases hok
  · split at hok
    · cases hok
    · rename_i r' h'' heq
      split at hok
      · cases hok
      · cases hok
        exact computeHessian_frame t (FTape.WF_self wf) rf.J _ _ h hmk r' h' heq v

example : WF sqTape.blocks ∧ (∀ v, (unitHeap v).marked = false) ∧ ∃ r h',
    (sqRF 1).hessian sqTape (.single 7) ((sqRF 1).derivative sqTape.blocks 1 unitHeap).2 = .ok (r, h') :=
  ⟨sqTape_wf, fun _ => rfl, _, _, rfl⟩

/-! ### Flat arrays and the optimisers -/

/-- The layout of `AdjFloat` controls. -/
def floatCodecs {V : Type*} (cs : List BV) : List (Codec V V) := cs.map fun _ => Codec.float

theorem setLocal_float {V : Type*} (cs : List BV) (src : List V) (o : Nat) :
    setLocal src (floatCodecs cs) o
      = if o + cs.length ≤ src.length ∨ cs = [] then some ((src.drop o).take cs.length) else none := by
  induction cs generalizing o with
  | nil => simp [floatCodecs, setLocal]
  | cons c cs ih =>
    show (match (Codec.float : Codec V V).assign src o with
      | none => none
      | some (v, o') => (setLocal src (floatCodecs cs) o').map (v :: ·)) = _
    by_cases hlt : o < src.length
    · have h1 : (src.drop o).take 1 = [src[o]] := by
        rw [List.drop_eq_getElem_cons hlt]; rfl
      have : (Codec.float : Codec V V).assign src o = some (src[o], o + 1) := by
        show (match Codec.float.decode ((src.drop o).take 1) with
          | none => none
          | some v => some (v, o + 1)) = _
        rw [h1]; rfl
      rw [this]
      simp only []
      rw [ih, List.drop_eq_getElem_cons hlt]
      by_cases hle : o + (cs.length + 1) ≤ src.length
      · rw [if_pos (Or.inl (by omega)), if_pos (Or.inl (by simpa using hle))]
        rfl
      · have hcs : cs ≠ [] := by
          rintro rfl; simp at hle; omega
        rw [if_neg (by rintro (h | h); omega; exact hcs h),
          if_neg (by rintro (h | h); exact hle (by simpa using h); cases h)]
        rfl
    · have : (Codec.float : Codec V V).assign src o = none := by
        show (match Codec.float.decode ((src.drop o).take 1) with
          | none => none
          | some v => some (v, o + 1)) = _
        rw [List.drop_eq_nil_of_le (by omega)]; rfl
      rw [this, if_neg]
      rintro (h | h)
      · simp at h; omega
      · cases h

theorem getGlobal_float {V : Type*} (cs : List BV) (vs : List V) :
    getGlobal (floatCodecs cs) vs = vs.take cs.length := by
  induction cs generalizing vs with
  | nil => simp [floatCodecs, getGlobal]
  | cons c cs ih =>
    cases vs with
    | nil => rfl
    | cons v vs =>
      show [v] ++ getGlobal (floatCodecs cs) vs = _
      rw [ih]; rfl

theorem getGlobal_float_map (cs : List BV) (s : ℝ) (d : Ret ℝ) :
    getGlobal (floatCodecs cs) (d.map (s * ·)).items
      = (getGlobal (floatCodecs cs) d.items).map (s * ·) := by
  rw [getGlobal_float, getGlobal_float]
  cases d <;> simp [Ret.map, Ret.items]

/-- **C20, `maximize`.** For a `ReducedFunctional`, whatever `scale` attribute it had, `maximize(rf,
scale = s)` hands the optimiser a function whose values, gradients and Hessian actions are `-s` times
those of the unscaled reduced functional, for every tape, state, point and direction. -/
theorem maximize_negates (rf : RF ℝ) (t w : FTape) (s : ℝ) (h : FHeap) :
    let f := (maximizeObjective (.rf rf) s).1
    let f₁ : NpRF ℝ := { rf := { rf with scale := 1 } }
    let codecs := floatCodecs rf.enlisted.items
    (∀ src, f.call codecs t.blocks src h
      = (f₁.call codecs t.blocks src h).map fun p => (-s * p.1, p.2)) ∧
    ((∀ c ∈ rf.enlisted.items, OnTape t.blocks c ∨ c = rf.J ∨ (h c).adj = none) → ∀ m,
      (f.derivative codecs t.blocks m h).1
        = (f₁.derivative codecs t.blocks m h).1.map (List.map (-s * ·))) ∧
    (rf.enlisted.items ≠ [] → rf.components = none → OnTape t.blocks rf.J →
      (∀ c ∈ rf.enlisted.items, OnTape t.blocks c ∨ ((h c).adj = none ∧ (h c).hess = none)) →
      ∀ m dir, (f.hessian codecs t w m dir h).map (·.1)
        = (f₁.hessian codecs t w m dir h).map fun p => p.1.map (-s * ·)) := by
  intro f f₁ codecs
  have hder : (∀ c ∈ rf.enlisted.items, OnTape t.blocks c ∨ c = rf.J ∨ (h c).adj = none) → ∀ m,
      (f.derivative codecs t.blocks m h).1
        = (f₁.derivative codecs t.blocks m h).1.map (List.map (-s * ·)) := by
    intro hon m
    have := derivative_scaled rf t (-s) 1 h hon
    show (RF.derivative { rf with scale := -s } t.blocks 1 h).1.map _ = _
    rw [this]
    show _ = ((RF.derivative { rf with scale := (1 : ℝ) } t.blocks 1 h).1.map _).map _
    cases (RF.derivative { rf with scale := (1 : ℝ) } t.blocks 1 h).1 with
    | error e => rfl
    | ok d =>
      show Except.ok (getGlobal codecs (d.map (-s * ·)).items) = _
      rw [getGlobal_float_map]; rfl
  refine ⟨?_, hder, ?_⟩
  · intro src
    unfold NpRF.call
    cases setLocal src codecs 0 with
    | none => rfl
    | some xs => exact value_scaled rf t (-s) (.list xs) h
  · intro hne hcomp hJ hon m dir
    have hder := hder (fun c hc => by
      rcases hon c hc with h' | h'
      · exact Or.inl h'
      · exact Or.inr (Or.inr h'.1)) none
    unfold NpRF.hessian
    simp only []
    rw [hder]
    cases h1 : (f₁.derivative codecs t.blocks none h).1 with
    | error e => rfl
    | ok d =>
      simp only [Except.map]
      cases setLocal dir codecs 0 with
      | none => rfl
      | some ds =>
        have key := hessian_scaled_partial rf t (-s) 1 (.list ds) h hne hcomp hJ hon
        simp only []
        rw [show (f.derivative codecs t.blocks none h).2
            = (RF.derivative { rf with scale := -s } t.blocks 1 h).2 from rfl,
          show (f₁.derivative codecs t.blocks none h).2
            = (RF.derivative { rf with scale := (1 : ℝ) } t.blocks 1 h).2 from rfl,
          show f.rf = { rf with scale := -s } from rfl,
          show f₁.rf = { rf with scale := (1 : ℝ) } from rfl]
        generalize RF.hessian { rf with scale := -s } t (.list ds) _ = X at *
        generalize RF.hessian { rf with scale := (1 : ℝ) } t (.list ds) _ = Y at *
        rcases X with e | ⟨x, hx⟩ <;> rcases Y with e' | ⟨y, hy⟩
        · cases key; rfl
        · cases key
        · cases key
        · have hxy : x = y.map (-s * ·) := Except.ok.inj key
          subst hxy
          simp only []
          rw [getGlobal_float_map]

/-- **C20 fails for `ReducedFunctionalNumPy`.** `maximize` (and `minimize` with a factor) of a
`ReducedFunctionalNumPy` hands the optimiser the function with the wrapped functional's own factor: the
sign and the `scale` argument have no effect, so that `maximize` minimises. -/
theorem maximize_numpy_minimises (f : NpRF ℝ) (s : ℝ) (t w : FTape) (codecs : List (Codec ℝ ℝ)) (h : FHeap) :
    let g := (maximizeObjective (.np f) s).1
    (∀ src, g.call codecs t.blocks src h = f.call codecs t.blocks src h) ∧
    (∀ m, g.derivative codecs t.blocks m h = f.derivative codecs t.blocks m h) ∧
    ∀ m dir, g.hessian codecs t w m dir h = f.hessian codecs t w m dir h :=
  ⟨fun _ => rfl, fun _ => rfl, fun _ _ => rfl⟩

/-- The same on a concrete functional: maximising `J = x²` through `ReducedFunctionalNumPy` hands the
optimiser `x²`, through `ReducedFunctional` `-x²`. -/
theorem maximize_numpy_witness (x : ℝ) :
    ((maximizeObjective (.np { rf := sqRF 1 }) 1).1.call (floatCodecs [0]) sqTape.blocks [x] unitHeap).map
        (·.1) = .ok (x ^ 2) ∧
    ((maximizeObjective (.rf (sqRF 1)) 1).1.call (floatCodecs [0]) sqTape.blocks [x] unitHeap).map
        (·.1) = .ok (-x ^ 2) := by
  constructor
  · show Except.ok (x * x * 1) = Except.ok (x ^ 2)
    congr 1; ring
  · show Except.ok (x * x * -1) = Except.ok (-x ^ 2)
    congr 1; ring

/-- `minimize` and `maximize` leave their factor on the user's reduced functional: after `maximize(rf)`
(default factor 1) a call of a functional that was unscaled returns the negated value. -/
theorem maximize_leaves_scale (rf : RF ℝ) (s : ℝ) (t : FTape) (values : Arg ℝ) (h : FHeap) :
    ∃ r, (maximizeObjective (.rf rf) s).2 = .rf r ∧
      r.call t.blocks values h
        = (RF.call { rf with scale := (1 : ℝ) } t.blocks values h).map fun p => (-s * p.1, p.2) :=
  ⟨_, rfl, value_scaled rf t (-s) values h⟩

end Pyadjoint
