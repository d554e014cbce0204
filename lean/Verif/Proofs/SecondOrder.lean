import Verif.Model.SecondOrder
import Verif.Spec.SecondOrder
import Verif.Proofs.Chain
import Verif.Proofs.FloatTlm
import Verif.Proofs.Marking
import Mathlib.Analysis.Calculus.Deriv.Comp
import Mathlib.Analysis.Calculus.Deriv.Pi
import Mathlib.Analysis.Calculus.Deriv.Add
import Mathlib.Analysis.Calculus.Deriv.Mul

/-! The default tangent and Hessian sweeps on blocks with correct components. -/

namespace Pyadjoint

variable {V A : Type*} [NormedAddCommGroup V] [NormedSpace ℝ V]

section tangent

/-- One block, along a curve. -/
theorem CorrectTangent.curve [NormedAddCommGroup A] [NormedSpace ℝ A] {b : Block V V A} {x : Fin b.deps.length → V}
    {vary : Fin b.deps.length → Prop} (hb : CorrectTangent b x vary)
    (u : ℝ → Fin b.deps.length → V) (t : Fin b.deps.length → Option V) (h0 : u 0 = x) (hd : ∀ j, HasDerivAt (fun s => u s j) ((t j).getD 0) 0)
    (hv : ∀ j, ¬ vary j → t j = none ∧ ∀ s, u s j = x j) (i : Fin b.outs.length) :
    HasDerivAt (fun s => (b.recomputeC (List.ofFn (u s)) i).getD 0)
      ((if (List.ofFn t).all Option.isNone then none else b.tlmC (List.ofFn x) (List.ofFn t) i).getD 0) 0 := by
  obtain ⟨G, hG, hT⟩ := hb.deriv
  have hpi : HasDerivAt u (fun j => (t j).getD 0) 0 := hasDerivAt_pi.2 hd
  have h1 := hG i
  rw [← h0] at h1
  have hc := h1.comp_hasDerivAt (0 : ℝ) hpi (Filter.Eventually.of_forall fun s j hj => by
    show u s j = u 0 j
    rw [(hv j hj).2 s, h0])
  refine hc.congr_deriv ?_
  split
  · rename_i hall
    have : ∀ j, t j = none := by
      intro j
      have := List.all_eq_true.1 hall (t j) ((List.mem_ofFn' _ _).2 ⟨j, rfl⟩)
      simpa using this
    simp [this]
  · rename_i hall
    have hex : ∃ j, t j ≠ none := by
      by_contra hc
      push Not at hc
      apply hall
      rw [List.all_eq_true]
      intro a ha
      obtain ⟨j, rfl⟩ := (List.mem_ofFn' _ _).1 ha
      simp [hc j]
    rw [hT t hex (fun j hj => (hv j hj).1) i]
    simp

variable [NormedAddCommGroup A] [NormedSpace ℝ A]

theorem tlm_curve {bs : Blocks V V A} (wf : WF bs) (cs : List BV) (hnd : cs.Nodup) (h : Heap V V A) (hfl : ∀ v, (h v).isControl = false)
    (x₀ dir : Fin cs.length → V) (hind : ∀ b ∈ bs, (∃ d ∈ b.deps, Reach bs (· ∈ cs) d) → ∀ o ∈ b.outs, o ∉ cs)
    (hcorrect : ∀ b ∈ bs, (∃ d ∈ b.deps, Reach bs (· ∈ cs) d) →
      CorrectTangent b (fun j => replayVal bs cs h x₀ b.deps[j]) (fun j => Reach bs (· ∈ cs) b.deps[j]))
    (m : Bool) (g : Heap V V A) (hg : ∀ v, saved g v = replayVal bs cs h x₀ v) (hm : m = true → ∀ v, Reach bs (· ∈ cs) v → (g v).marked = true)
    (hseed : ∀ i : Fin cs.length, (g cs[i]).tlm = some (dir i)) (hrest : ∀ v, OnTape bs v → v ∉ cs → (g v).tlm = none) :
    ∀ v, (OnTape bs v ∨ v ∈ cs) →
      HasDerivAt (fun s : ℝ => replayVal bs cs h (x₀ + s • dir) v) ((evaluateTlm bs m g v).tlm.getD 0) 0 ∧
      (¬ Reach bs (· ∈ cs) v → (evaluateTlm bs m g v).tlm = none) := by
  have e0 : x₀ + (0 : ℝ) • dir = x₀ := by simp
  have hctl : ∀ i : Fin cs.length, HasDerivAt (fun s : ℝ => replayVal bs cs h (x₀ + s • dir) cs[i]) (dir i) 0 := by
    intro i
    have : (fun s : ℝ => replayVal bs cs h (x₀ + s • dir) cs[i]) = fun s : ℝ => x₀ i + s • dir i := by
      funext s
      rw [replayVal_control bs cs hnd h hfl]
      rfl
    rw [this]
    simpa using ((hasDerivAt_id (0 : ℝ)).smul_const (dir i)).const_add (x₀ i)
  have hconst : ∀ v, ¬ Reach bs (· ∈ cs) v → HasDerivAt (fun s : ℝ => replayVal bs cs h (x₀ + s • dir) v) (0 : V) 0 := by
    intro v hv
    have : (fun s : ℝ => replayVal bs cs h (x₀ + s • dir) v) = fun _ => replayVal bs cs h x₀ v :=
      funext fun s => replayVal_of_not_reach wf cs h hfl _ _ v hv
    rw [this]
    exact hasDerivAt_const _ _
  apply tape_induction wf (P := fun v => (OnTape bs v ∨ v ∈ cs) →
      HasDerivAt (fun s : ℝ => replayVal bs cs h (x₀ + s • dir) v) ((evaluateTlm bs m g v).tlm.getD 0) 0 ∧
      (¬ Reach bs (· ∈ cs) v → (evaluateTlm bs m g v).tlm = none))
  · intro v hv hon
    rw [evaluateTlm_of_not_out bs m g v hv]
    by_cases hc : v ∈ cs
    · obtain ⟨i, hi, rfl⟩ := List.getElem_of_mem hc
      have := hseed ⟨i, hi⟩
      simp only [Fin.getElem_fin] at this
      rw [this]
      exact ⟨hctl ⟨i, hi⟩, fun hr => absurd (Reach.base hc) hr⟩
    · have hr : ¬ Reach bs (· ∈ cs) v := by
        intro hr
        cases hr with
        | base h => exact hc h
        | step hb _ _ ho => exact hv _ hb ho
      have hn := hrest v (hon.resolve_right hc) hc
      rw [hn]
      exact ⟨hconst v hr, fun _ => rfl⟩
  · intro b hb ih o ho _
    have ih' : ∀ d ∈ b.deps, _ := fun d hd => ih d hd (Or.inl ⟨b, hb, Or.inl hd⟩)
    obtain ⟨i, hi, rfl⟩ := List.getElem_of_mem ho
    have heq := evaluateTlm_eq wf m g b hb b.outs[i] ho
    by_cases hd : ∃ d ∈ b.deps, Reach bs (· ∈ cs) d
    · have hno := hind b hb hd
      have hro : Reach bs (· ∈ cs) b.outs[i] := by
        obtain ⟨d, hd, hr⟩ := hd
        exact Reach.step hb hd hr ho
      have hmk : ((g b.outs[i]).marked || !m) = true := by
        cases m with
        | false => simp
        | true => simp [hm rfl _ hro]
      rw [hrest _ ⟨b, hb, Or.inr ho⟩ (hno _ ho), if_pos hmk, entries_zipIdx_nodup (wf.nodup b hb) hi] at heq
      refine ⟨?_, fun h => absurd hro h⟩
      have hb' := hcorrect b hb hd
      have hcurve := hb'.curve (fun s j => replayVal bs cs h (x₀ + s • dir) b.deps[j]) (fun j => (evaluateTlm bs m g b.deps[j]).tlm)
        (by funext j; simp only [e0]) (fun j => (ih' _ (List.getElem_mem _)).1)
        (fun j hj => ⟨(ih' _ (List.getElem_mem _)).2 hj, fun s => replayVal_of_not_reach wf cs h hfl _ _ _ hj⟩) ⟨i, hi⟩
      have efun : (fun s : ℝ => replayVal bs cs h (x₀ + s • dir) b.outs[i])
          = fun s : ℝ => (b.recomputeC (List.ofFn fun j : Fin b.deps.length => replayVal bs cs h (x₀ + s • dir) b.deps[j]) i).getD 0 :=
        funext fun s => replayVal_block wf cs h hfl _ b hb hno ⟨i, hi⟩ (fun u => hb'.total u ⟨i, hi⟩)
      rw [efun]
      refine hcurve.congr_deriv ?_
      rw [heq, map_eq_ofFn b.deps, map_eq_ofFn b.deps]
      have hsv : (List.ofFn fun j : Fin b.deps.length => saved g b.deps[j]) = List.ofFn fun j : Fin b.deps.length => replayVal bs cs h x₀ b.deps[j] := by
        congr 1; funext j; exact hg _
      rw [hsv]
      split
      · rfl
      · simp only [List.foldl_cons, List.foldl_nil]
        generalize b.tlmC _ _ _ = y
        cases y <;> rfl
    · push Not at hd
      have hall : (b.deps.map fun d => (evaluateTlm bs m g d).tlm).all Option.isNone = true := by
        rw [List.all_eq_true]
        intro y hy
        obtain ⟨d, hd', rfl⟩ := List.mem_map.1 hy
        rw [(ih' d hd').2 (hd d hd')]
        rfl
      rw [if_pos hall] at heq
      rw [heq]
      by_cases hc : b.outs[i] ∈ cs
      · obtain ⟨k, hk, hke⟩ := List.getElem_of_mem hc
        have := hseed ⟨k, hk⟩
        have h2 := hctl ⟨k, hk⟩
        simp only [Fin.getElem_fin] at this h2
        rw [hke] at this h2
        rw [this]
        exact ⟨h2, fun hr => absurd (Reach.base hc) hr⟩
      · have hr : ¬ Reach bs (· ∈ cs) b.outs[i] := by
          intro hr
          cases hr with
          | base h => exact hc h
          | step hb' hd' hr' ho' =>
            have := wf.unique_producer hb' hb ho' ho
            subst this
            exact hd _ hd' hr'
        have hn := hrest _ ⟨b, hb, Or.inr ho⟩ hc
        rw [hn]
        exact ⟨hconst _ hr, fun _ => rfl⟩

end tangent

section hessian

omit [NormedAddCommGroup V] [NormedSpace ℝ V] in
/-- The Hessian value block `b` leaves on `v`. -/
def Block.hessAfter [Add A] {T : Type*} (b : Block V T A) (m : Bool) (h : Heap V T A) (v : BV) : Option A :=
  if (b.outs.map fun o => (h o).hess).all Option.isNone then (h v).hess
  else if (h v).marked || !m then
    (entries b.deps v).foldl (fun o p => accum o
      (b.hessC (b.deps.map (saved h)) (b.outs.map fun o => (h o).hess) (b.outs.map fun o => (h o).adj) p.2
        ((relevant h m b.deps).map fun q => (q.2, (h q.1).tlm)))) (h v).hess
  else (h v).hess

omit [NormedAddCommGroup V] [NormedSpace ℝ V] in
theorem Block.evaluateHessian_apply [Add A] {T : Type*} (b : Block V T A) (m : Bool) (h : Heap V T A) (v : BV) :
    b.evaluateHessian m h v = { h v with hess := b.hessAfter m h v } := by
  unfold Block.evaluateHessian Block.hessAfter
  simp only []
  split
  · rfl
  · have key : ∀ (l : List (BV × Nat)) (c : Nat → Option A),
        (l.foldl (fun h p => addHess? h p.1 (c p.2)) h) v
          = { h v with hess := (l.filter (fun p => p.1 = v)).foldl (fun o p => accum o (c p.2)) (h v).hess } := by
      intro l c
      simp only [addHess?_eq]
      rw [foldl_update_apply (fun p : BV × Nat => p.1)
        (fun (x : Var V T A) p => { x with hess := accum x.hess (c p.2) })]
      exact foldl_const_field (fun y => { h v with hess := y })
        (fun o (p : BV × Nat) => accum o (c p.2)) _ _
        (fun (x : Var V T A) p => { x with hess := accum x.hess (c p.2) }) (fun _ _ => rfl)
    have hr := relevant_filter h m b.deps v
    have k := key (relevant h m b.deps)
      (fun i => b.hessC (b.deps.map (saved h)) (b.outs.map fun o => (h o).hess) (b.outs.map fun o => (h o).adj) i
        ((relevant h m b.deps).map fun q => (q.2, (h q.1).tlm)))
    rw [hr] at k
    split
    · rename_i he
      have he' : relevant h m b.deps = [] := by simpa using he
      rw [he'] at hr
      simp only [List.filter_nil] at hr
      split
      · rename_i hm; rw [if_pos hm] at hr; rw [← hr]; rfl
      · rfl
    · rw [k]
      split <;> rfl

omit [NormedAddCommGroup V] [NormedSpace ℝ V] in
theorem evaluateHessian_cons [Add A] {T : Type*} (b : Block V T A) (bs : Blocks V T A) (m : Bool) (h : Heap V T A) :
    evaluateHessian (b :: bs) m h = b.evaluateHessian m (evaluateHessian bs m h) := by
  simp [evaluateHessian, List.foldl_append]

omit [NormedAddCommGroup V] [NormedSpace ℝ V] in
theorem evaluateHessian_frame [Add A] {T : Type*} (bs : Blocks V T A) (m : Bool) (h : Heap V T A) (v : BV) :
    ∃ a, evaluateHessian bs m h v = { h v with hess := a } := by
  unfold evaluateHessian
  generalize bs.reverse = l
  induction l generalizing h with
  | nil => exact ⟨_, rfl⟩
  | cons b l ih =>
    rw [List.foldl_cons]
    obtain ⟨a, ha⟩ := ih (b.evaluateHessian m h)
    refine ⟨a, ?_⟩
    rw [ha, Block.evaluateHessian_apply]

theorem zipIdx_eq_finRange {α : Type*} (l : List α) :
    l.zipIdx = (List.finRange l.length).map fun j => (l[j], j.val) := by
  apply List.ext_getElem
  · simp
  · intro i h1 h2
    simp

open Classical in
theorem relevant_eq_varying {b : Block V V A} (k : Heap V V A) (R : BV → Prop) (hm : ∀ v, (k v).marked = true ↔ R v) :
    ((relevant k true b.deps).map fun q => (q.2, (k q.1).tlm))
      = varying (fun j => R b.deps[j]) (fun j => (k b.deps[j]).tlm) := by
  unfold relevant varying
  rw [zipIdx_eq_finRange, List.filter_map, List.map_map]
  have : (List.finRange b.deps.length).filter ((fun p : BV × Nat => (k p.1).marked || !true) ∘ fun j => (b.deps[j], j.val))
      = (List.finRange b.deps.length).filter fun j => R b.deps[j] := by
    apply List.filter_congr
    intro j _
    simp only [Function.comp, Bool.not_true, Bool.or_false]
    by_cases hr : R b.deps[j]
    · rw [decide_eq_true hr, (hm _).2 hr]
    · rw [decide_eq_false hr]
      exact Bool.eq_false_iff.2 fun h => hr ((hm _).1 h)
  rw [this]
  rfl

variable [NormedAddCommGroup A] [NormedSpace ℝ A]

theorem foldl_accum_deriv {α : Type*} (l : List α) (c : ℝ → α → Option A) (d : α → Option A)
    (hs : ∀ p ∈ l, (∀ s, (c s p).isSome) ∧ (d p).isSome ∧ HasDerivAt (fun s => (c s p).getD 0) ((d p).getD 0) 0)
    (a : ℝ → Option A) (a' : Option A) (ha : HasDerivAt (fun s => (a s).getD 0) (a'.getD 0) 0) (hi : ∀ s, (a s).isSome = a'.isSome) :
    HasDerivAt (fun s => (l.foldl (fun o p => accum o (c s p)) (a s)).getD 0) ((l.foldl (fun o p => accum o (d p)) a').getD 0) 0 ∧
      ∀ s, (l.foldl (fun o p => accum o (c s p)) (a s)).isSome = (l.foldl (fun o p => accum o (d p)) a').isSome := by
  induction l generalizing a a' with
  | nil => exact ⟨ha, hi⟩
  | cons p l ih =>
    simp only [List.foldl_cons]
    obtain ⟨h1, h2, h3⟩ := hs p (by simp)
    have ev : ∀ x y : Option A, y.isSome → (accum x y).getD 0 = x.getD 0 + y.getD 0 ∧ (accum x y).isSome := by
      intro x y hy
      obtain ⟨y, rfl⟩ := Option.isSome_iff_exists.1 hy
      cases x <;> simp [accum]
    refine ih (fun q hq => hs q (by simp [hq])) _ _ ?_ ?_
    · have e : (fun s => (accum (a s) (c s p)).getD 0) = fun s => (a s).getD 0 + (c s p).getD 0 := funext fun s => (ev _ _ (h1 s)).1
      rw [e, (ev _ _ h2).1]
      exact ha.add h3
    · intro s
      rw [(ev _ _ (h1 s)).2, (ev _ _ h2).2]

/-- **The default Hessian sweep is the derivative of the adjoint sweep.** -/
theorem hess_sweep_generic (bs : Blocks V V A) (wf : WF bs) (R : BV → Prop) (hR : ∀ b ∈ bs, (∃ d ∈ b.deps, R d) → ∀ o ∈ b.outs, R o)
    (val : ℝ → BV → V) (K : Heap V V A)
    (hval : ∀ b ∈ bs, ∀ d ∈ b.deps, HasDerivAt (fun s => val s d) ((K d).tlm.getD 0) 0)
    (hconst : ∀ b ∈ bs, ∀ d ∈ b.deps, ¬ R d → (K d).tlm = none ∧ ∀ s, val s d = val 0 d)
    (hc : ∀ b ∈ bs, (∃ d ∈ b.deps, R d) → CorrectHessian b (fun j => val 0 b.deps[j]) (fun j => R b.deps[j]))
    (H : ℝ → Heap V V A) (hHm : ∀ s v, R v → (H s v).marked = true) (hHv : ∀ s v, saved (H s) v = val s v)
    (hKm : ∀ v, (K v).marked = true ↔ R v) (hKv : ∀ v, saved K v = val 0 v)
    (hKa : ∀ b ∈ bs, ∀ o ∈ b.outs, R o → (K o).adj = (evaluateAdj bs true (H 0) o).adj)
    (hinit : ∀ v, R v → HasDerivAt (fun s => (H s v).adj.getD 0) ((K v).hess.getD 0) 0 ∧ ∀ s, (H s v).adj.isSome = (K v).hess.isSome) :
    ∀ v, R v → HasDerivAt (fun s => (evaluateAdj bs true (H s) v).adj.getD 0) ((evaluateHessian bs true K v).hess.getD 0) 0 ∧
      ∀ s, (evaluateAdj bs true (H s) v).adj.isSome = (evaluateHessian bs true K v).hess.isSome := by
  induction bs with
  | nil => exact hinit
  | cons b bs ih =>
    have keep : ∀ (h : Heap V V A) (v : BV), v ∉ b.deps → (evaluateAdj (b :: bs) true h v).adj = (evaluateAdj bs true h v).adj := by
      intro h v hv
      rw [evaluateAdj_cons, Block.evaluateAdj_apply]
      simp only
      unfold Block.adjAfter
      split
      · rfl
      · simp [entries_nil_of_not_mem hv]
    have ih := ih wf.tail (fun b' hb' => hR b' (by simp [hb'])) (fun b' hb' => hval b' (by simp [hb']))
      (fun b' hb' => hconst b' (by simp [hb'])) (fun b' hb' => hc b' (by simp [hb'])) (by
        intro b' hb' o ho hr
        rw [hKa b' (by simp [hb']) o ho hr]
        exact keep _ _ fun hd => ((wf.head b' hb').1 o hd) ho)
    have hfr := evaluateHessian_frame bs true K
    have hfa := fun s => evaluateAdj_frame bs true (H s)
    intro v hr
    rw [evaluateHessian_cons, Block.evaluateHessian_apply]
    simp only [evaluateAdj_cons, Block.evaluateAdj_apply]
    have hKo : ∀ o ∈ b.outs, R o → (K o).adj = (evaluateAdj bs true (H 0) o).adj := by
      intro o ho hro
      rw [hKa b (by simp) o ho hro]
      exact keep _ _ fun hd => wf.self b (by simp) o hd ho
    clear keep
    generalize evaluateHessian bs true K = k at ih hfr ⊢
    generalize hg : (fun s => evaluateAdj bs true (H s)) = g at *
    have hgs : ∀ s, evaluateAdj bs true (H s) = g s := fun s => by rw [← hg]
    simp only [hgs] at ih hfa hKo ⊢
    have gm : ∀ s w, (g s w).marked = (H s w).marked := fun s w => by obtain ⟨a, ha⟩ := hfa s w; rw [ha]
    have gv : ∀ s w, saved (g s) w = val s w := fun s w => by
      obtain ⟨a, ha⟩ := hfa s w
      rw [← hHv s w]
      exact saved_congr (by rw [ha]) (by rw [ha])
    have km : ∀ w, (k w).marked = true ↔ R w := fun w => by obtain ⟨a, ha⟩ := hfr w; rw [ha]; exact hKm w
    have kv : ∀ w, saved k w = val 0 w := fun w => by
      obtain ⟨a, ha⟩ := hfr w
      rw [← hKv w]
      exact saved_congr (by rw [ha]) (by rw [ha])
    have kt : ∀ w, (k w).tlm = (K w).tlm := fun w => by obtain ⟨a, ha⟩ := hfr w; rw [ha]
    have ka : ∀ w, (k w).adj = (K w).adj := fun w => by obtain ⟨a, ha⟩ := hfr w; rw [ha]
    obtain ⟨ihd, ihs⟩ := ih v hr
    unfold Block.adjAfter Block.hessAfter
    by_cases hv : v ∈ b.deps
    swap
    · simp only [entries_nil_of_not_mem hv, List.foldl_nil, ite_self]
      exact ⟨ihd, ihs⟩
    have hdep : ∃ d ∈ b.deps, R d := ⟨v, hv, hr⟩
    have hro := hR b (by simp) hdep
    have hcb := hc b (by simp) hdep
    have hnone : ∀ s, (b.outs.map fun o => (g s o).adj).all Option.isNone = (b.outs.map fun o => (k o).hess).all Option.isNone := by
      intro s
      rw [List.all_map, List.all_map, Bool.eq_iff_iff, List.all_eq_true, List.all_eq_true]
      refine forall₂_congr fun o ho => ?_
      have := (ih o (hro o ho)).2 s
      simp only [Function.comp]
      rw [← Option.not_isSome, ← Option.not_isSome, this]
    simp only [hnone]
    by_cases hall : (b.outs.map fun o => (k o).hess).all Option.isNone = true
    · simp only [hall, if_true]
      exact ⟨ihd, ihs⟩
    · simp only [hall, if_false, gm, hHm _ v hr, (km v).2 hr, Bool.true_or, if_true, Bool.false_eq_true]
      have hmu : ∃ i : Fin b.outs.length, (k b.outs[i]).hess ≠ none := by
        by_contra hcon
        push Not at hcon
        apply hall
        rw [List.all_map, List.all_eq_true]
        intro o ho
        obtain ⟨i, hi, rfl⟩ := List.getElem_of_mem ho
        have := hcon ⟨i, hi⟩
        simp only [Fin.getElem_fin] at this
        simp [this]
      have hlam : ∀ s, ∃ i : Fin b.outs.length, (g s b.outs[i]).adj ≠ none := by
        intro s
        obtain ⟨i, hi⟩ := hmu
        refine ⟨i, fun e => hi ?_⟩
        have := (ih b.outs[i] (hro _ (List.getElem_mem _))).2 s
        rw [e] at this
        exact Option.not_isSome_iff_eq_none.1 (by rw [← this]; simp)
      refine foldl_accum_deriv _ (fun s (p : BV × Nat) => b.adjC (b.deps.map (saved (g s))) (b.outs.map fun o => (g s o).adj) p.2) _ ?_ _ _ ihd ihs
      intro p hp
      have hp1 : p.1 = v := by simpa [entries] using (List.mem_filter.1 hp).2
      obtain ⟨-, hlt, hpe⟩ := List.mem_zipIdx (List.mem_filter.1 hp).1
      simp only [Nat.zero_add, Nat.sub_zero] at hlt hpe
      have hvary : R b.deps[(⟨p.2, hlt⟩ : Fin b.deps.length)] := by
        simp only [Fin.getElem_fin]
        rw [← hpe, hp1]; exact hr
      have ed : ∀ s, b.deps.map (saved (g s)) = List.ofFn fun j : Fin b.deps.length => val s b.deps[j] := by
        intro s
        rw [map_eq_ofFn]
        congr 1; funext j; exact gv s _
      have ek : b.deps.map (saved k) = List.ofFn fun j : Fin b.deps.length => val 0 b.deps[j] := by
        rw [map_eq_ofFn]
        congr 1; funext j; exact kv _
      have ea : (b.outs.map fun o => (k o).adj) = List.ofFn fun i : Fin b.outs.length => (g 0 b.outs[i]).adj := by
        rw [map_eq_ofFn]
        congr 1; funext i
        rw [ka]; exact hKo _ (List.getElem_mem _) (hro _ (List.getElem_mem _))
      rw [relevant_eq_varying k R km, ek, ea]
      simp only [ed, map_eq_ofFn b.outs]
      refine ⟨fun s => hcb.adjoint _ _ (hlam s) ⟨p.2, hlt⟩ hvary, hcb.hessian _ _ _ hmu ⟨p.2, hlt⟩ hvary, ?_⟩
      exact hcb.deriv (fun s j => val s b.deps[j]) (fun j => (k b.deps[j]).tlm) (fun s i => (g s b.outs[i]).adj) (fun i => (k b.outs[i]).hess) rfl
        (fun j => by rw [kt]; exact hval b (by simp) _ (List.getElem_mem _))
        (fun j hj => by rw [kt]; exact hconst b (by simp) _ (List.getElem_mem _) hj)
        (fun i s => (ih _ (hro _ (List.getElem_mem _))).2 s) (fun i => (ih _ (hro _ (List.getElem_mem _))).1) hmu ⟨p.2, hlt⟩ hvary

end hessian

end Pyadjoint
