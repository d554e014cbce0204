import Verif.Props.Adjoint
import Mathlib.Algebra.Module.Defs
import Mathlib.Algebra.BigOperators.Fin
import Mathlib.Tactic.Ring
import Mathlib.Algebra.Module.BigOperators

/-!
# C04, C45: adjoint/tangent duality and linearity, for arbitrary blocks
-/

namespace Pyadjoint

variable {V T A R : Type*}

/-- Pairing of adjoint and tangent values either of which may be missing (`None` counts as zero). -/
def pairO [AddCommMonoid R] (pr : A → T → R) : Option A → Option T → R
  | some a, some t => pr a t
  | _, _ => 0

@[simp] theorem pairO_none_left [AddCommMonoid R] (pr : A → T → R) (t : Option T) :
    pairO pr none t = 0 := by cases t <;> rfl

@[simp] theorem pairO_none_right [AddCommMonoid R] (pr : A → T → R) (a : Option A) :
    pairO pr a none = 0 := by cases a <;> rfl

@[simp] theorem pairO_some [AddCommMonoid R] (pr : A → T → R) (a : A) (t : T) :
    pairO pr (some a) (some t) = pr a t := rfl

/-- Specification of a correctly implemented block: its adjoint component methods are the
transpose of its tangent component methods, at the given input values. -/
def IsTransposed [AddCommMonoid R] (pr : A → T → R) (b : Block V T A) (inputs : List V) : Prop :=
  ∀ (adjIn : List (Option A)) (tlmIn : List (Option T)),
    adjIn.length = b.outs.length → tlmIn.length = b.deps.length →
    (∃ a ∈ adjIn, a ≠ none) → (∃ t ∈ tlmIn, t ≠ none) →
    ∑ i : Fin b.outs.length, pairO pr (adjIn[i.val]?).join (b.tlmC inputs tlmIn i)
      = ∑ i : Fin b.deps.length, pairO pr (b.adjC inputs adjIn i) (tlmIn[i.val]?).join

theorem sum_map_zipIdx [AddCommMonoid R] (l : List BV) (f : BV × Nat → R) :
    (l.zipIdx.map f).sum = ∑ i : Fin l.length, f (l[i], i) := by
  have : l.zipIdx.map f = List.ofFn fun i : Fin l.length => f (l[i], i) := by
    apply List.ext_getElem <;> simp
  rw [this, List.sum_ofFn]

theorem sum_map_zip [AddCommMonoid R] {X : Type*} (l : List BV) (xs : List X)
    (hx : xs.length = l.length) (f : BV × X → R) :
    ((l.zip xs).map f).sum = ∑ i : Fin l.length, f (l[i], xs[i]) := by
  have : (l.zip xs).map f = List.ofFn fun i : Fin l.length => f (l[i], xs[i]) := by
    apply List.ext_getElem <;> simp [hx]
  rw [this, List.sum_ofFn]

/-- **C04.** For a tape of correctly implemented blocks, run `evaluate_tlm` from tangent seeds on
variables that the tape does not produce, then `evaluate_adj` from any adjoint seeds.  The
pairing of the adjoint seeds with the tangent results equals the pairing of the adjoint results with
the tangent seeds.  `s` is any finite set containing the variables of the tape. -/
theorem adjoint_tlm_duality [AddCommMonoid R] [Add A] [Add T] (pr : A → T → R)
    (hadd : ∀ a b t, pr (a + b) t = pr a t + pr b t)
    {bs : Blocks V T A} (wf : WF bs) (h : Heap V T A)
    (hseed : ∀ b ∈ bs, ∀ o ∈ b.outs, (h o).tlm = none)
    (htr : ∀ b ∈ bs, IsTransposed pr b (b.deps.map (saved h)))
    (s : Finset BV) (hs : ∀ v, OnTape bs v → v ∈ s) :
    let h₁ := evaluateTlm bs false h
    let h₂ := evaluateAdj bs false h₁
    ∑ v ∈ s, pairO pr (h v).adj (h₂ v).tlm
      = ∑ v ∈ s with ¬ ∃ b ∈ bs, v ∈ b.outs, pairO pr (h₂ v).adj (h v).tlm := by
  classical
  intro h₁ h₂
  -- tangents as elements of `Option T`, missing means zero
  let pr' : A → Option T → R := fun a t => pairO pr (some a) t
  have hadd' : ∀ a b t, pr' (a + b) t = pr' a t + pr' b t := by
    intro a b t
    cases t with
    | none => simp [pr', pairO]
    | some t => simp [pr', pairO, hadd]
  have hpv : ∀ (o : Option A) (t : Option T), pv pr' o t = pairO pr o t := by
    intro o t; cases o <;> cases t <;> rfl
  have dual := evaluateAdj_dual pr' hadd' wf (fun _ => True) false h₁ (fun v => (h₁ v).tlm) s hs
    (by simp) (fun v hv => absurd trivial hv) (by
    intro b hb _ adjIn hlen hne
    rw [sum_map_zip _ _ hlen, sum_map_zipIdx]
    simp only [hpv]
    have hsv : b.deps.map (saved h₁) = b.deps.map (saved h) :=
      List.map_congr_left fun w _ => by simp [h₁]
    rw [hsv]
    have hout : ∀ i : Fin b.outs.length, (h₁ b.outs[i]).tlm
        = if (b.deps.map fun d => (h₁ d).tlm).all Option.isNone then none
          else b.tlmC (b.deps.map (saved h)) (b.deps.map fun d => (h₁ d).tlm) i := by
      intro i
      have hmem : b.outs[i] ∈ b.outs := List.getElem_mem _
      rw [evaluateTlm_eq wf false h b hb _ hmem, hseed b hb _ hmem]
      split
      · rfl
      · rw [if_pos (by simp)]
        have := entries_zipIdx_nodup (wf.nodup b hb) i.2
        simp only [Fin.getElem_fin] at this ⊢
        rw [this]
        simp only [List.foldl_cons, List.foldl_nil]
        generalize b.tlmC _ _ _ = x
        cases x <;> rfl
    simp only [hout]
    have hj : ∀ i : Fin b.deps.length,
        ((b.deps.map fun d => (h₁ d).tlm)[i.val]?).join = (h₁ b.deps[i]).tlm := by
      intro i; simp
    split
    · rename_i hall
      have hz : ∀ i : Fin b.deps.length, (h₁ b.deps[i]).tlm = none := by
        intro i
        have := List.all_eq_true.1 hall (h₁ b.deps[i]).tlm
          (List.mem_map.2 ⟨b.deps[i], List.getElem_mem _, rfl⟩)
        simpa using this
      rw [Finset.sum_eq_zero, Finset.sum_eq_zero]
      · intro i _
        rw [hz i]; cases b.adjC _ _ _ <;> rfl
      · intro i _; cases adjIn[i] <;> rfl
    · rename_i hall
      have := htr b hb adjIn (b.deps.map fun d => (h₁ d).tlm) hlen (by simp) (by
        by_contra hc
        push Not at hc
        rw [List.all_eq_true.2 (fun a ha => by simp [hc a ha])] at hne
        cases hne) (by
        by_contra hc
        push Not at hc
        exact hall (List.all_eq_true.2 fun a ha => by simp [hc a ha]))
      simp only [hj] at this
      rw [← this]
      apply Finset.sum_congr rfl
      intro i _
      congr 1
      simp [hlen])
  simp only [hpv] at dual
  have e1 : ∀ v, pairO pr (h v).adj (h₂ v).tlm = pairO pr (h₁ v).adj (h₁ v).tlm := by
    intro v; simp [h₂, h₁]
  rw [Finset.sum_congr rfl fun v _ => e1 v, ← dual]
  have hal : alive bs (fun _ => True) s ⊆ s := fun v hv => (mem_alive.1 hv).1
  symm
  rw [← Finset.sum_subset (s₁ := s.filter fun v => ¬ ∃ b ∈ bs, v ∈ b.outs)
    (s₂ := alive bs (fun _ => True) s)]
  · apply Finset.sum_congr rfl
    intro v hv
    rw [Finset.mem_filter] at hv
    have : h₁ v = h v := evaluateTlm_of_not_out bs false h v fun b hb ho => hv.2 ⟨b, hb, ho⟩
    rw [this]
  · intro v hv
    rw [Finset.mem_filter] at hv
    rw [mem_alive]
    exact ⟨hv.1, fun ⟨b, hb, _, ho⟩ => hv.2 ⟨b, hb, ho⟩⟩
  · intro v hv hnv
    rw [mem_alive] at hv
    have hex : ∃ b ∈ bs, v ∈ b.outs := by
      by_contra hc
      exact hnv (Finset.mem_filter.2 ⟨hv.1, hc⟩)
    -- produced only by blocks without dependencies: no tangent
    obtain ⟨b, hb, ho⟩ := hex
    have hnd : b.deps = [] := by
      by_contra hne
      obtain ⟨d, hd⟩ := List.exists_mem_of_ne_nil _ hne
      exact hv.2 ⟨b, hb, ⟨d, hd, trivial⟩, ho⟩
    have : (h₁ v).tlm = none := by
      rw [evaluateTlm_eq wf false h b hb v ho, hnd]
      simp [hseed b hb v ho]
    rw [this]
    cases (evaluateAdj bs false h₁ v).adj <;> rfl

/-- The example tape is correctly implemented, for the ordinary product on the integers. -/
theorem exTape_transposed (h : Heap Int Int Int) :
    ∀ b ∈ exTape, IsTransposed (fun a t : Int => a * t) b (b.deps.map (saved h)) := by
  intro b hb
  simp only [exTape, List.mem_cons, List.not_mem_nil, or_false] at hb
  rcases hb with rfl | rfl
  · intro adjIn tlmIn ha ht _ _
    match adjIn, tlmIn, ha, ht with
    | [a], [t], _, _ =>
      change ∑ i : Fin 1, _ = ∑ i : Fin 1, _
      cases a <;> cases t <;> simp [exDouble]
      ring
  · intro adjIn tlmIn ha ht _ _
    match adjIn, tlmIn, ha, ht with
    | [a], [t, u], _, _ =>
      change ∑ i : Fin 1, _ = ∑ i : Fin 2, _
      cases a <;> cases t <;> cases u <;> simp [exAdd, mul_add, Fin.sum_univ_two]

example : WF exTape ∧ (∀ b ∈ exTape, ∀ o ∈ b.outs, (exHeap o).tlm = none) ∧
    (∀ v, OnTape exTape v → v ∈ Finset.range 4) := by
  refine ⟨exTape_wf, fun _ _ _ _ => rfl, ?_⟩
  rintro v ⟨b, hb, hv⟩
  simp only [exTape, List.mem_cons, List.not_mem_nil, or_false] at hb
  rcases hb with rfl | rfl <;> simp only [exDouble, exAdd, List.mem_cons,
    List.not_mem_nil, or_false] at hv
  · rcases hv with rfl | rfl <;> decide
  · rcases hv with (rfl | rfl) | rfl <;> decide

/-! ## C45 -/

/-- `r·a + s·b` of two adjoint values, when both are present. -/
def combO {K : Type*} [Semiring K] [AddCommMonoid A] [Module K A] (r s : K) :
    Option A → Option A → Option A
  | some a, some b => some (r • a + s • b)
  | _, _ => none

/-- Specification of a block whose adjoint components are linear in the incoming adjoint values. -/
def IsLinearAdj {K : Type*} [Semiring K] [AddCommMonoid A] [Module K A] (b : Block V T A) : Prop :=
  ∀ (r s : K) (inputs : List V) (x y : List (Option A)) (i : Nat),
    x.map Option.isNone = y.map Option.isNone →
    (b.adjC inputs x i).isNone = (b.adjC inputs y i).isNone ∧
    b.adjC inputs (List.zipWith (combO r s) x y) i = combO r s (b.adjC inputs x i) (b.adjC inputs y i)

section
variable {K : Type*} [Semiring K] [AddCommMonoid A] [Module K A] (r s : K)

theorem combO_accum (o₁ o₂ x₁ x₂ : Option A) (ho : o₁.isNone = o₂.isNone)
    (hx : x₁.isNone = x₂.isNone) :
    combO r s (accum o₁ x₁) (accum o₂ x₂) = accum (combO r s o₁ o₂) (combO r s x₁ x₂) ∧
    (accum o₁ x₁).isNone = (accum o₂ x₂).isNone := by
  cases o₁ <;> cases o₂ <;> cases x₁ <;> cases x₂ <;>
    simp_all [accum, combO]
  rw [smul_add, smul_add, add_add_add_comm]

theorem combO_foldl {α : Type*} (l : List α) (c₁ c₂ : α → Option A)
    (hc : ∀ p ∈ l, (c₁ p).isNone = (c₂ p).isNone) (o₁ o₂ : Option A)
    (ho : o₁.isNone = o₂.isNone) :
    combO r s (l.foldl (fun o p => accum o (c₁ p)) o₁) (l.foldl (fun o p => accum o (c₂ p)) o₂)
        = l.foldl (fun o p => accum o (combO r s (c₁ p) (c₂ p))) (combO r s o₁ o₂) ∧
    (l.foldl (fun o p => accum o (c₁ p)) o₁).isNone
        = (l.foldl (fun o p => accum o (c₂ p)) o₂).isNone := by
  induction l generalizing o₁ o₂ with
  | nil => exact ⟨rfl, ho⟩
  | cons p l ih =>
    obtain ⟨e1, e2⟩ := combO_accum r s o₁ o₂ (c₁ p) (c₂ p) ho (hc p (by simp))
    simp only [List.foldl_cons]
    rw [← e1]
    exact ih (fun q hq => hc q (by simp [hq])) _ _ e2

/-- Three sweeps over heaps that differ in adjoint values only, the third being the linear
combination of the first two. -/
theorem evaluateAdj_linear (bs : Blocks V T A) (hlin : ∀ b ∈ bs, IsLinearAdj (K := K) b) (m : Bool)
    (h₁ h₂ h₃ : Heap V T A)
    (hs : ∀ v, saved h₁ v = saved h₂ v ∧ saved h₁ v = saved h₃ v)
    (hm : ∀ v, (h₁ v).marked = (h₂ v).marked ∧ (h₁ v).marked = (h₃ v).marked)
    (ha : ∀ v, (h₁ v).adj.isNone = (h₂ v).adj.isNone ∧
      (h₃ v).adj = combO r s (h₁ v).adj (h₂ v).adj) :
    ∀ v, (evaluateAdj bs m h₁ v).adj.isNone = (evaluateAdj bs m h₂ v).adj.isNone ∧
      (evaluateAdj bs m h₃ v).adj
        = combO r s (evaluateAdj bs m h₁ v).adj (evaluateAdj bs m h₂ v).adj := by
  induction bs with
  | nil => exact ha
  | cons b bs ih =>
    have ih := ih (fun b' hb' => hlin b' (by simp [hb']))
    intro v
    simp only [evaluateAdj_cons, Block.evaluateAdj_apply]
    have mk := hm v
    have sv₁ : ∀ w, saved (evaluateAdj bs m h₁) w = saved h₁ w := fun w => by simp
    have sv₂ : ∀ w, saved (evaluateAdj bs m h₂) w = saved h₁ w := fun w => by simp [(hs w).1]
    have sv₃ : ∀ w, saved (evaluateAdj bs m h₃) w = saved h₁ w := fun w => by simp [(hs w).2]
    have m₁ : (evaluateAdj bs m h₁ v).marked = (h₁ v).marked := by simp
    have m₂ : (evaluateAdj bs m h₂ v).marked = (h₁ v).marked := by simp [mk.1]
    have m₃ : (evaluateAdj bs m h₃ v).marked = (h₁ v).marked := by simp [mk.2]
    generalize evaluateAdj bs m h₁ = g₁ at *
    generalize evaluateAdj bs m h₂ = g₂ at *
    generalize evaluateAdj bs m h₃ = g₃ at *
    unfold Block.adjAfter
    have pat : b.outs.map (fun o => (g₁ o).adj.isNone) = b.outs.map fun o => (g₂ o).adj.isNone :=
      List.map_congr_left fun o _ => (ih o).1
    have pat' : (b.outs.map fun o => (g₁ o).adj).map Option.isNone
        = (b.outs.map fun o => (g₂ o).adj).map Option.isNone := by
      rw [List.map_map, List.map_map]; exact pat
    have hall : (b.outs.map fun o => (g₁ o).adj).all Option.isNone
        = (b.outs.map fun o => (g₂ o).adj).all Option.isNone := by
      have : ∀ l : List (Option A), l.all Option.isNone = (l.map Option.isNone).all id := by
        intro l; rw [List.all_map]; rfl
      rw [this, this, pat']
    have hzip : b.outs.map (fun o => (g₃ o).adj)
        = List.zipWith (combO r s) (b.outs.map fun o => (g₁ o).adj) (b.outs.map fun o => (g₂ o).adj) := by
      rw [List.zipWith_map, List.zipWith_self]
      exact List.map_congr_left fun o _ => (ih o).2
    have hall3 : (b.outs.map fun o => (g₃ o).adj).all Option.isNone
        = (b.outs.map fun o => (g₁ o).adj).all Option.isNone := by
      rw [List.all_map, List.all_map]
      congr 1
      funext o
      have h1 := (ih o).1
      simp only [Function.comp]
      rw [(ih o).2]
      generalize (g₁ o).adj = a at h1 ⊢
      generalize (g₂ o).adj = b at h1 ⊢
      cases a <;> cases b <;> first | rfl | cases h1
    rw [List.map_congr_left fun w _ => sv₁ w, List.map_congr_left fun w _ => sv₂ w,
      List.map_congr_left fun w _ => sv₃ w, m₁, m₂, m₃, hall3, ← hall]
    split
    · exact ih v
    · split
      · rw [hzip]
        have hc := hlin b (by simp)
        have h1 : ∀ p : BV × Nat, (b.adjC (b.deps.map fun w => saved h₁ w)
              (b.outs.map fun o => (g₁ o).adj) p.2).isNone
            = (b.adjC (b.deps.map fun w => saved h₁ w) (b.outs.map fun o => (g₂ o).adj) p.2).isNone :=
          fun p => (hc r s _ _ _ _ pat').1
        have h2 := combO_foldl r s (entries b.deps v)
          (fun p => b.adjC (b.deps.map fun w => saved h₁ w) (b.outs.map fun o => (g₁ o).adj) p.2)
          (fun p => b.adjC (b.deps.map fun w => saved h₁ w) (b.outs.map fun o => (g₂ o).adj) p.2)
          (fun p _ => h1 p) (g₁ v).adj (g₂ v).adj (ih v).1
        refine ⟨h2.2, ?_⟩
        rw [h2.1, (ih v).2]
        have : (fun (o : Option A) (p : BV × Nat) => accum o (b.adjC (b.deps.map fun w => saved h₁ w)
              (List.zipWith (combO r s) (b.outs.map fun o => (g₁ o).adj)
                (b.outs.map fun o => (g₂ o).adj)) p.2))
            = fun o p => accum o (combO r s
              (b.adjC (b.deps.map fun w => saved h₁ w) (b.outs.map fun o => (g₁ o).adj) p.2)
              (b.adjC (b.deps.map fun w => saved h₁ w) (b.outs.map fun o => (g₂ o).adj) p.2)) := by
          funext o p
          rw [(hc r s _ _ _ _ pat').2]
        rw [this]
      · exact ih v

/-- **C45.** For blocks with linear adjoint components, the gradient is linear in the adjoint input:
`compute_gradient(adj_value = r·u + s·w) = r·compute_gradient(u) + s·compute_gradient(w)`. -/
theorem gradient_linear_in_adj_input {bs : Blocks V T A} (wf : WF bs)
    (hlin : ∀ b ∈ bs, IsLinearAdj (K := K) b) (J : BV) (cs : List BV) (u w : A) (h : Heap V T A)
    (hon : ∀ c ∈ cs, OnTape bs c ∨ c = J ∨ (h c).adj = none) :
    (computeGradient bs J cs (r • u + s • w) h).1
      = List.zipWith (fun a b => r • a + s • b)
          (computeGradient bs J cs u h).1 (computeGradient bs J cs w h).1 := by
  classical
  -- forget leftovers outside the tape, which the computation never reads except on controls
  let clean : Heap V T A → Heap V T A := fun h v => { h v with adj := none }
  have key : ∀ c ∈ cs, ∀ seed, (computeGradientState bs J cs seed h c).adj
      = (evaluateAdj bs true (markControls cs true (markAll (findRelevantNodes bs cs) true
          (Function.update (clean h) J { clean h J with adj := some seed }))) c).adj := by
    intro c hc seed
    unfold computeGradientState markedAdjoint
    simp only [markAll_adj, markControls_adj]
    apply evaluateAdj_sim bs (· ∈ findRelevantNodes bs cs) (findRelevantNodes_closed wf cs)
    · intro v hv; simp [markAll_apply, hv]
    · intro v hv; simp [markAll_apply, hv]
    · intro v hv
      simp only [markAll_adj, markControls_adj]
      by_cases hJ : v = J
      · subst hJ; simp
      · rw [Function.update_of_ne hJ, Function.update_of_ne hJ, resetVariables_apply]
        split
        · rfl
        · rename_i hoff
          have hv' : v ∈ cs := by
            apply mem_findRelevantNodes_of_not_out bs cs v _ hv
            intro b hb ho
            exact hoff ⟨b, hb, Or.inr ho⟩
          rcases hon v hv' with h' | h' | h'
          · exact absurd h' hoff
          · exact absurd h' hJ
          · exact h'
    · intro v
      simp only [saved_markAll, saved_markControls, saved_update_adj, saved_resetVariables]
      rfl
    · exact subset_findRelevantNodes bs cs c hc
  unfold computeGradient
  simp only []
  rw [List.zipWith_map, List.zipWith_self]
  apply List.map_congr_left
  intro c hc
  unfold getDerivative
  rw [key c hc, key c hc, key c hc]
  have := evaluateAdj_linear r s bs hlin true
    (markControls cs true (markAll (findRelevantNodes bs cs) true
      (Function.update (clean h) J { clean h J with adj := some u })))
    (markControls cs true (markAll (findRelevantNodes bs cs) true
      (Function.update (clean h) J { clean h J with adj := some w })))
    (markControls cs true (markAll (findRelevantNodes bs cs) true
      (Function.update (clean h) J { clean h J with adj := some (r • u + s • w) })))
    (by intro v; simp) (by
      intro v
      by_cases hJ : v = J
      · subst hJ; simp [markAll_apply]; split <;> simp
      · simp [markAll_apply, Function.update_of_ne hJ]) (by
      intro v
      by_cases hJ : v = J
      · subst hJ; simp [combO]
      · simp [Function.update_of_ne hJ, clean, combO]) c
  rw [this.2]
  revert this
  generalize (evaluateAdj bs true _ c).adj = a
  generalize (evaluateAdj bs true _ c).adj = b
  intro this
  cases a <;> cases b <;> simp_all [combO]

end

/-- The blocks of the example tape have linear adjoint components. -/
theorem exTape_linear : ∀ b ∈ exTape, IsLinearAdj (K := Int) b := by
  intro b hb
  simp only [exTape, List.mem_cons, List.not_mem_nil, or_false] at hb
  rcases hb with rfl | rfl
  · intro r s inputs x y i hxy
    match x, y, hxy with
    | [], [], _ => exact ⟨rfl, rfl⟩
    | a :: _, b :: _, h =>
      cases a <;> cases b <;> simp [exDouble, combO] at h ⊢
      ring
  · intro r s inputs x y i hxy
    match x, y, hxy with
    | [], [], _ => exact ⟨rfl, rfl⟩
    | a :: _, b :: _, h =>
      cases a <;> cases b <;> simp [exAdd, combO] at h ⊢

example : WF exTape ∧ (∀ b ∈ exTape, IsLinearAdj (K := Int) b) ∧
    (∀ c ∈ [0, 1], OnTape exTape c ∨ c = 3 ∨ (exHeap c).adj = none) ∧
    (computeGradient exTape 3 [0, 1] (3 * 1 + 4 * 5) exHeap).1 = [46, 23] :=
  ⟨exTape_wf, exTape_linear, fun _ _ => Or.inr (Or.inr rfl), by decide⟩

end Pyadjoint
