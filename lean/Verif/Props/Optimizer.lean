import Verif.Model.Optimizer
import Verif.Props.History
import Verif.Props.Numpy
import Verif.Props.Hessian

/-!
# What an optimiser sees (C62)
-/

namespace Pyadjoint

/-! ## Specification: the optimiser on a mathematical function -/

/-- What the optimiser returns if its questions are answered by a function `F`, its gradient `G` and its Hessian action `H`;
`none` if it raises. -/
noncomputable def Algo.ideal {n : Nat} (F : (Fin n → ℝ) → ℝ) (G : (Fin n → ℝ) → Fin n → ℝ) (H : (Fin n → ℝ) → (Fin n → ℝ) → Fin n → ℝ) :
    Algo n → Option (Fin n → ℝ)
  | .done x => some x
  | .fail => none
  | .value x next => (next (F x)).ideal F G H
  | .gradient x next => (next (List.ofFn (G x))).ideal F G H
  | .hessian x d next => (next (List.ofFn (H x d))).ideal F G H

/-- On that run, gradients and Hessian actions are asked for at the point evaluated last (`last`), and where `S₁`, `S₂` hold. -/
def Algo.Protocol {n : Nat} (F : (Fin n → ℝ) → ℝ) (G : (Fin n → ℝ) → Fin n → ℝ) (H : (Fin n → ℝ) → (Fin n → ℝ) → Fin n → ℝ)
    (S₁ : (Fin n → ℝ) → Prop) (S₂ : (Fin n → ℝ) → (Fin n → ℝ) → Prop) : Option (Fin n → ℝ) → Algo n → Prop
  | _, .done _ => True
  | _, .fail => True
  | _, .value x next => (next (F x)).Protocol F G H S₁ S₂ (some x)
  | last, .gradient x next => last = some x ∧ S₁ x ∧ (next (List.ofFn (G x))).Protocol F G H S₁ S₂ last
  | last, .hessian x d next => last = some x ∧ S₂ x d ∧ (next (List.ofFn (H x d))).Protocol F G H S₁ S₂ last

/-- The point the run evaluates last; `last` if it evaluates none. -/
noncomputable def Algo.lastPoint {n : Nat} (F : (Fin n → ℝ) → ℝ) (G : (Fin n → ℝ) → Fin n → ℝ)
    (H : (Fin n → ℝ) → (Fin n → ℝ) → Fin n → ℝ) : Option (Fin n → ℝ) → Algo n → Option (Fin n → ℝ)
  | last, .done _ => last
  | last, .fail => last
  | _, .value x next => (next (F x)).lastPoint F G H (some x)
  | last, .gradient x next => (next (List.ofFn (G x))).lastPoint F G H last
  | last, .hessian x d next => (next (List.ofFn (H x d))).lastPoint F G H last

/-- A tape and a reduced functional as they are after recording, or after any completed calls. -/
structure OptReady (t : FTape) (rf : RF ℝ) (h : FHeap) : Prop where
  wf : WF t.blocks
  comp : rf.components = none
  ne : rf.enlisted.items ≠ []
  nodup : rf.enlisted.items.Nodup
  functional : OnTape t.blocks rf.J
  controls : ∀ c ∈ rf.enlisted.items, OnTape t.blocks c
  independent : IndependentControls t.blocks rf.enlisted.items
  flags : ∀ v, (h v).isControl = false
  marks : ∀ v, (h v).marked = false

/-- Every operation that depends on a control is differentiable at `x`. -/
def SmoothAt (t : FTape) (cs : List BV) (h : FHeap) (x : Fin cs.length → ℝ) : Prop :=
  ∀ b ∈ t, (∃ d ∈ b.deps, Reach t.blocks (· ∈ cs) d) →
    b.Smooth (saved (rfEval t.blocks cs (List.ofFn x) h)) (Reach t.blocks (· ∈ cs))

/-- Every operation that depends on a control is twice differentiable at `x`, its Hessian formula is right there (C06), and the Hessian sweep
does not raise (C06). -/
def HessAt (t : FTape) (J : BV) (cs : List BV) (scale : ℝ) (h : FHeap) (x d : Fin cs.length → ℝ) : Prop :=
  (∀ b ∈ t, (∃ d ∈ b.deps, Reach t.blocks (· ∈ cs) d) →
    b.Smooth2 (saved (rfEval t.blocks cs (List.ofFn x) h)) (Reach t.blocks (· ∈ cs))) ∧
  (∀ b ∈ t, (∃ d ∈ b.deps, Reach t.blocks (· ∈ cs) d) →
    b.NoDefect (saved (rfEval t.blocks cs (List.ofFn x) h))
      (fun v => deriv (fun s : ℝ => saved (rfEval t.blocks cs (List.ofFn (x + s • d)) h) v) 0)
      (adjointAt t J cs scale 1 h x b.out)
      (deriv (fun s : ℝ => adjointAt t J cs scale 1 h (x + s • d) b.out) 0)) ∧
  ∀ b ∈ t, b.NeedsAdj → Reach t.blocks (· ∈ cs) b.out

/-! ## Proof -/

theorem hessian_after_gradient (t : FTape) (cs : List BV) (J : BV) (hJ : OnTape t.blocks J)
    (hcs : ∀ c ∈ cs, OnTape t.blocks c) (g₁ g₀ : FHeap) (hsv : ∀ v, saved g₁ v = saved g₀ v)
    (m₁ : ∀ v, (g₁ v).marked = false) (m₀ : ∀ v, (g₀ v).marked = false) (f₁ : ∀ v, (g₁ v).isControl = false)
    (f₀ : ∀ v, (g₀ v).isControl = false) (seed : ℝ) (ds : List ℝ) :
    (t.computeHessian J cs ds (computeGradientState t.blocks J cs seed g₁)).map (·.1)
      = (t.computeHessian J cs ds (computeGradientState t.blocks J cs seed g₀)).map (·.1) := by
  have hon : ∀ v, touched t cs J v → OnTape t.blocks v := by
    rintro v (hv | hv | rfl)
    · exact hv
    · exact hcs v hv
    · exact hJ
  have ha := adj_of_saved t J cs seed hon g₁ g₀ (fun v _ => hsv v) m₁ m₀
  refine hessian_of_saved t J cs ds _ _ (fun v _ => ?_) ha (fun v _ => ?_) fun v hv => Or.inl (hon v hv)
  · obtain ⟨a, e1⟩ := computeGradientState_adj_frame t.blocks J cs seed g₁ f₁ m₁ v
    obtain ⟨b, e0⟩ := computeGradientState_adj_frame t.blocks J cs seed g₀ f₀ m₀ v
    have := hsv v
    unfold saved at this ⊢
    rw [e1, e0]; exact this
  · obtain ⟨a, e1⟩ := computeGradientState_adj_frame t.blocks J cs seed g₁ f₁ m₁ v
    obtain ⟨b, e0⟩ := computeGradientState_adj_frame t.blocks J cs seed g₀ f₀ m₀ v
    rw [e1, e0]
    exact (m₁ v).trans (m₀ v).symm

theorem delist_items {α β : Type*} (a : Arg α) (r : List β) (hl : r.length = (Enlist.of a).items.length) :
    ∃ q, (Enlist.of a).delist r = .ok q ∧ q.items = r := by
  cases a with
  | single a =>
    match r, hl with
    | [b], _ => exact ⟨.one b, rfl, rfl⟩
  | list l => exact ⟨.many r, rfl, rfl⟩
  | tuple l => exact ⟨.many r, rfl, rfl⟩
  | enlist e => exact ⟨.many r, rfl, rfl⟩

section
variable {t : FTape} {f : NpRF ℝ} {h₀ : FHeap}

/-- Everything agrees with the last evaluation. -/
structure OptState (t : FTape) (cs : List BV) (h₀ : FHeap) (last : Option (Fin cs.length → ℝ)) (h : FHeap) : Prop where
  base : SameBase t cs h₀ h
  saved : ∀ x, last = some x → ∀ v, saved h v = saved (rfEval t.blocks cs (List.ofFn x) h₀) v

theorem np_call (x : Fin f.rf.enlisted.items.length → ℝ) (h : FHeap) :
    f.call (floatCodecs f.rf.enlisted.items) t.blocks (List.ofFn x) h
      = .ok (saved (rfEval t.blocks f.rf.enlisted.items (List.ofFn x) h) f.rf.J * f.rf.scale,
          rfEval t.blocks f.rf.enlisted.items (List.ofFn x) h) := by
  unfold NpRF.call
  rw [(flat_array_floats f.rf.enlisted.items (List.ofFn x)).1]
  simp only [List.length_ofFn, Nat.le_refl, if_true]
  rw [List.take_of_length_le (by simp)]
  simp [RF.call, rfCall, Enlist.of]

theorem np_hessian (r : OptReady t f.rf h₀) (w : FTape) (m : Option (List ℝ)) (d : Fin f.rf.enlisted.items.length → ℝ) (h : FHeap)
    (hs : List ℝ) (h' : FHeap)
    (hok : t.computeHessian f.rf.J f.rf.enlisted.items (List.ofFn d)
      (computeGradientState t.blocks f.rf.J f.rf.enlisted.items (1 * f.rf.scale) h) = .ok (hs, h')) :
    f.hessian (floatCodecs f.rf.enlisted.items) t w m (List.ofFn d) h = .ok (hs, resetVariables w.blocks .adjoint h') := by
  have hlen : hs.length = f.rf.enlisted.items.length := by
    rw [computeHessian_eq] at hok
    cases he : t.evaluateHessian true (preHess t f.rf.J f.rf.enlisted.items (List.ofFn d)
      (computeGradientState t.blocks f.rf.J f.rf.enlisted.items (1 * f.rf.scale) h)) with
    | error e => rw [he] at hok; cases hok
    | ok g => rw [he] at hok; cases hok; simp
  unfold NpRF.hessian
  simp only []
  rw [numpy_derivative_floats f t.blocks none h r.comp r.ne]
  simp only []
  rw [(flat_array_floats f.rf.enlisted.items (List.ofFn d)).1]
  simp only [List.length_ofFn, Nat.le_refl, if_true]
  rw [List.take_of_length_le (by simp)]
  have e2 : (f.derivative (floatCodecs f.rf.enlisted.items) t.blocks none h).2
      = computeGradientState t.blocks f.rf.J f.rf.enlisted.items (1 * f.rf.scale) h := derivative_heap f.rf t.blocks 1 h r.ne r.comp
  rw [e2]
  obtain ⟨q, hq, hq'⟩ := delist_items f.rf.controls hs hlen
  have e3 : f.rf.hessian t (.list (List.ofFn d)) (computeGradientState t.blocks f.rf.J f.rf.enlisted.items (1 * f.rf.scale) h)
      = .ok (q, h') := by
    unfold RF.hessian
    simp only [Enlist.of, List.length_ofFn, lt_irrefl, if_false]
    rw [hok]
    simp only []
    show (match (Enlist.of f.rf.controls).delist hs with
      | .error x => Except.error x
      | .ok r => Except.ok (r, h')) = _
    rw [hq]
  rw [e3]
  simp only [hq']
  rw [(flat_array_floats f.rf.enlisted.items hs).2 hs hlen]

theorem run_gradient {w : FTape} {n : Nat} (x : Fin n → ℝ) (next : List ℝ → Algo n) (h : FHeap) (g : List ℝ) (h' : FHeap)
    (e1 : (f.derivative (floatCodecs f.rf.enlisted.items) t.blocks (some (List.ofFn x)) h).1 = .ok g)
    (e2 : (f.derivative (floatCodecs f.rf.enlisted.items) t.blocks (some (List.ofFn x)) h).2 = h') :
    (Algo.gradient x next).run f (floatCodecs f.rf.enlisted.items) t w h
      = (next g).run f (floatCodecs f.rf.enlisted.items) t w h' := by
  rw [Algo.run]
  generalize f.derivative (floatCodecs f.rf.enlisted.items) t.blocks (some (List.ofFn x)) h = q at e1 e2 ⊢
  obtain ⟨a, b⟩ := q
  cases e1
  cases e2
  rfl

theorem optState_adj (cs : List BV) {last : Option (Fin cs.length → ℝ)} {h h' : FHeap} (s : OptState t cs h₀ last h)
    (hfr : ∀ v, ∃ a b c, h' v = { h v with adj := a, tlm := b, hess := c }) : OptState t cs h₀ last h' := by
  refine ⟨⟨fun v => ?_, fun v => ?_, fun v => ?_, fun v hv => ?_⟩, fun x hx v => ?_⟩
  · obtain ⟨a, b, c, e⟩ := hfr v; rw [e]; exact s.base.output v
  · obtain ⟨a, b, c, e⟩ := hfr v; rw [e]; exact s.base.flags v
  · obtain ⟨a, b, c, e⟩ := hfr v; rw [e]; exact s.base.marks v
  · obtain ⟨a, b, c, e⟩ := hfr v; rw [e]; exact s.base.kept v hv
  · rw [← s.saved x hx v]
    obtain ⟨a, b, c, e⟩ := hfr v
    unfold Pyadjoint.saved
    rw [e]

/-- The optimiser's run, from any state that agrees with the last evaluation. -/
theorem Algo.run_ideal (r : OptReady t f.rf h₀) (w : FTape)
    (F : (Fin f.rf.enlisted.items.length → ℝ) → ℝ)
    (hF : ∀ x, (f.call (floatCodecs f.rf.enlisted.items) t.blocks (List.ofFn x) h₀).map (·.1) = .ok (F x))
    (G : (Fin f.rf.enlisted.items.length → ℝ) → Fin f.rf.enlisted.items.length → ℝ)
    (hG : ∀ x, SmoothAt t f.rf.enlisted.items h₀ x →
      HasFDerivAt F (∑ i, G x i • (ContinuousLinearMap.proj i : (Fin f.rf.enlisted.items.length → ℝ) →L[ℝ] ℝ)) x)
    (H : (Fin f.rf.enlisted.items.length → ℝ) → (Fin f.rf.enlisted.items.length → ℝ) → Fin f.rf.enlisted.items.length → ℝ)
    (hH : ∀ x d, HessAt t f.rf.J f.rf.enlisted.items f.rf.scale h₀ x d → ∀ i,
      HasDerivAt (fun s : ℝ => fderiv ℝ F (x + s • d) (Pi.single i 1)) (H x d i) 0)
    (algo : Algo f.rf.enlisted.items.length) (last : Option (Fin f.rf.enlisted.items.length → ℝ)) (h : FHeap)
    (s : OptState t f.rf.enlisted.items h₀ last h)
    (hp : algo.Protocol F G H (SmoothAt t f.rf.enlisted.items h₀) (HessAt t f.rf.J f.rf.enlisted.items f.rf.scale h₀) last) :
    (∀ x, algo.ideal F G H = some x → ∃ h', algo.run f (floatCodecs f.rf.enlisted.items) t w h = .ok (x, h') ∧
      OptState t f.rf.enlisted.items h₀ (algo.lastPoint F G H last) h') ∧
    (algo.ideal F G H = none → algo.run f (floatCodecs f.rf.enlisted.items) t w h = .error .optimizer) := by
  have hF' : ∀ x, F x = saved (rfEval t.blocks f.rf.enlisted.items (List.ofFn x) h₀) f.rf.J * f.rf.scale := by
    intro x
    have := hF x
    rw [np_call x h₀] at this
    exact (Except.ok.inj this).symm
  have hF1 : (fun x => 1 * rfValue t f.rf.J f.rf.enlisted.items f.rf.scale h₀ x) = F := by
    funext x
    rw [one_mul, rfValue_eq, hF' x]
  induction algo generalizing last h with
  | done x =>
    refine ⟨fun y hy => ?_, fun hy => by cases hy⟩
    cases hy
    exact ⟨h, rfl, s⟩
  | fail =>
    refine ⟨fun y hy => ?_, fun _ => rfl⟩
    cases hy
  | value x next ih =>
    have hs : ∀ v, saved (rfEval t.blocks f.rf.enlisted.items (List.ofFn x) h) v
        = saved (rfEval t.blocks f.rf.enlisted.items (List.ofFn x) h₀) v :=
      evaluation_history_independent r.wf _ r.nodup _ (List.length_ofFn) t.total h h₀ s.base.flags r.flags s.base.output s.base.kept
    have s' : OptState t f.rf.enlisted.items h₀ (some x) (rfEval t.blocks f.rf.enlisted.items (List.ofFn x) h) := by
      refine ⟨SameBase.step r.wf s.base (.eval (List.ofFn x)) rfl, fun y hy v => ?_⟩
      cases hy
      exact hs v
    have e : (Algo.value x next).run f (floatCodecs f.rf.enlisted.items) t w h
        = (next (F x)).run f (floatCodecs f.rf.enlisted.items) t w (rfEval t.blocks f.rf.enlisted.items (List.ofFn x) h) := by
      rw [Algo.run, np_call x h]
      simp only []
      rw [hs, hF' x]
    rw [e]
    exact ih (F x) (some x) _ s' hp
  | gradient x next ih =>
    obtain ⟨hl, hsm, hp⟩ := hp
    have hsv := s.saved x hl
    obtain ⟨grad, h1, h2⟩ := numpy_gradient_exact t r.wf f r.comp r.ne r.nodup h₀ r.flags r.independent x hsm
      (fun c hc => Or.inl (r.controls c hc)) F hF _ _ (np_call x h₀) (some (List.ofFn x))
    have hgr : grad = G x := by
      have hu := h2.unique (hG x hsm)
      funext i
      have := congrArg (fun L : (Fin f.rf.enlisted.items.length → ℝ) →L[ℝ] ℝ => L (Pi.single i 1)) hu
      simpa [sum_apply, Pi.single_apply] using this
    have e1 : (f.derivative (floatCodecs f.rf.enlisted.items) t.blocks (some (List.ofFn x)) h).1 = .ok (List.ofFn (G x)) := by
      rw [← hgr, ← h1, numpy_derivative_floats f t.blocks _ _ r.comp r.ne, numpy_derivative_floats f t.blocks _ _ r.comp r.ne]
      rw [gradient_of_saved r.wf f.rf.J f.rf.enlisted.items _ _ _ hsv fun c hc => Or.inl (r.controls c hc)]
    have e2 : (f.derivative (floatCodecs f.rf.enlisted.items) t.blocks (some (List.ofFn x)) h).2
        = computeGradientState t.blocks f.rf.J f.rf.enlisted.items (1 * f.rf.scale) h := derivative_heap f.rf t.blocks 1 h r.ne r.comp
    have e : (Algo.gradient x next).run f (floatCodecs f.rf.enlisted.items) t w h
        = (next (List.ofFn (G x))).run f (floatCodecs f.rf.enlisted.items) t w
            (computeGradientState t.blocks f.rf.J f.rf.enlisted.items (1 * f.rf.scale) h) := by
      exact run_gradient x next h _ _ e1 e2
    rw [e]
    refine ih _ last _ (optState_adj _ s fun v => ?_) hp
    obtain ⟨a, ha⟩ := computeGradientState_adj_frame t.blocks f.rf.J f.rf.enlisted.items (1 * f.rf.scale) h s.base.flags s.base.marks v
    exact ⟨a, _, _, ha⟩
  | hessian x d next ih =>
    obtain ⟨hl, ⟨hsm, hnd, hneed⟩, hp'⟩ := hp
    have hsv := s.saved x hl
    set k₀ := rfEval t.blocks f.rf.enlisted.items (List.ofFn x) h₀ with hk₀
    have m₀ : ∀ v, (k₀ v).marked = false := fun v => by
      obtain ⟨o, ho⟩ := rfEval_frame t.blocks f.rf.enlisted.items (List.ofFn x) h₀ v (fun c _ => r.flags c); rw [hk₀, ho]; exact r.marks v
    have f₀ : ∀ v, (k₀ v).isControl = false := fun v => by
      obtain ⟨o, ho⟩ := rfEval_frame t.blocks f.rf.enlisted.items (List.ofFn x) h₀ v (fun c _ => r.flags c); rw [hk₀, ho]; exact r.flags v
    obtain ⟨⟨hs₀, hh₀⟩, hret⟩ := hessian_returns_partial t r.wf f.rf.J f.rf.enlisted.items k₀ f.rf.scale 1 (List.ofFn d)
      (fun c hc => Or.inl (r.controls c hc)) hneed
    obtain ⟨hess, h1, h2⟩ := hessian_exact_partial t r.wf f.rf.J f.rf.enlisted.items r.nodup h₀ r.flags r.independent f.rf.scale 1
      x d hsm (fun c hc => Or.inl (r.controls c hc)) hnd hs₀ hh₀ hret
    rw [hF1] at h2
    have hgr : hess = H x d := by
      funext i
      exact (h2 i).unique (hH x d ⟨hsm, hnd, hneed⟩ i)
    have hcmp := hessian_after_gradient t f.rf.enlisted.items f.rf.J r.functional r.controls h k₀ hsv s.base.marks m₀ s.base.flags f₀
      (1 * f.rf.scale) (List.ofFn d)
    have hret' : t.computeHessian f.rf.J f.rf.enlisted.items (List.ofFn d)
        (computeGradientState t.blocks f.rf.J f.rf.enlisted.items (1 * f.rf.scale) k₀) = .ok (hs₀, hh₀) := hret
    rw [hret'] at hcmp
    cases hc : t.computeHessian f.rf.J f.rf.enlisted.items (List.ofFn d)
        (computeGradientState t.blocks f.rf.J f.rf.enlisted.items (1 * f.rf.scale) h) with
    | error e => rw [hc] at hcmp; cases hcmp
    | ok q =>
      obtain ⟨q, h'⟩ := q
      rw [hc] at hcmp
      have hq : q = hs₀ := Except.ok.inj hcmp
      subst hq
      have e : (Algo.hessian x d next).run f (floatCodecs f.rf.enlisted.items) t w h
          = (next (List.ofFn (H x d))).run f (floatCodecs f.rf.enlisted.items) t w (resetVariables w.blocks .adjoint h') := by
        rw [Algo.run, np_hessian r w _ d h q h' hc]
        simp only []
        rw [h1, hgr]
      rw [e]
      refine ih _ last _ (optState_adj _ s fun v => ?_) hp'
      have hm1 : ∀ v, (computeGradientState t.blocks f.rf.J f.rf.enlisted.items (1 * f.rf.scale) h v).marked = false := by
        intro v
        obtain ⟨a, ha⟩ := computeGradientState_adj_frame t.blocks f.rf.J f.rf.enlisted.items (1 * f.rf.scale) h s.base.flags s.base.marks v
        rw [ha]; exact s.base.marks v
      obtain ⟨b, c, hbc⟩ := computeHessian_frame t (FTape.WF_self r.wf) f.rf.J _ _ _ hm1 q h' hc v
      obtain ⟨a, ha⟩ := computeGradientState_adj_frame t.blocks f.rf.J f.rf.enlisted.items (1 * f.rf.scale) h s.base.flags s.base.marks v
      rw [resetVariables_apply, hbc, ha]
      split
      · exact ⟨_, _, _, rfl⟩
      · exact ⟨_, _, _, rfl⟩

end


theorem getControls_floats (f : NpRF ℝ) (h : FHeap) :
    f.getControls (floatCodecs f.rf.enlisted.items) h = f.rf.enlisted.items.map (saved h) := by
  unfold NpRF.getControls
  exact (flat_array_floats f.rf.enlisted.items (f.rf.enlisted.items.map (saved h))).2 _ (by simp)

theorem rf_call_floats {t : FTape} (r : RF ℝ) (x : Fin r.enlisted.items.length → ℝ) (h : FHeap) :
    r.call t.blocks (.list (List.ofFn x)) h
      = .ok (saved (rfEval t.blocks r.enlisted.items (List.ofFn x) h) r.J * r.scale, rfEval t.blocks r.enlisted.items (List.ofFn x) h) := by
  simp [RF.call, rfCall, Enlist.of]

theorem updateControls_floats (cs : List BV) (hnd : cs.Nodup) (h : FHeap) (hfl : ∀ v, (h v).isControl = false) (x : Fin cs.length → ℝ) :
    cs.map (saved (updateControls cs (List.ofFn x) h)) = List.ofFn x := by
  apply List.ext_getElem
  · simp
  · intro i hi hi'
    rw [List.getElem_map]
    have hc := updateControls_ckpt cs (List.ofFn x) h hnd (by simp) (fun c _ => hfl c) i (by simpa using hi)
    unfold saved
    rw [hc]

theorem setControls_floats (f : NpRF ℝ) (x : Fin f.rf.enlisted.items.length → ℝ) (h : FHeap) :
    f.setControls (floatCodecs f.rf.enlisted.items) (List.ofFn x) h
      = .ok (List.ofFn x, updateControls f.rf.enlisted.items (List.ofFn x) h) := by
  unfold NpRF.setControls
  rw [(flat_array_floats f.rf.enlisted.items (List.ofFn x)).1]
  simp only [List.length_ofFn, Nat.le_refl, if_true]
  rw [List.take_of_length_le (by simp)]

theorem minimizeRun_error (t w : FTape) (r : RF ℝ) (s : ℝ) (algo : List ℝ → Algo r.enlisted.items.length) (h : FHeap) (e : OptErr)
    (h1 : (algo (r.enlisted.items.map (saved h))).run { rf := { r with scale := s } } (floatCodecs r.enlisted.items) t w h = .error e) :
    minimizeRun (.rf r) s (floatCodecs r.enlisted.items) t w algo h = .error e := by
  have hg : (minimizeObjective (.rf r) s).1.getControls (floatCodecs r.enlisted.items) h = r.enlisted.items.map (saved h) :=
    getControls_floats { rf := { r with scale := s } } h
  have h1' : (algo (r.enlisted.items.map (saved h))).run (minimizeObjective (.rf r) s).1 (floatCodecs r.enlisted.items) t w h = .error e := h1
  unfold minimizeRun
  simp only [hg, h1']

theorem minimizeRun_ok (t w : FTape) (r : RF ℝ) (s : ℝ) (algo : List ℝ → Algo r.enlisted.items.length) (h : FHeap)
    (x : Fin r.enlisted.items.length → ℝ) (h' : FHeap)
    (h1 : (algo (r.enlisted.items.map (saved h))).run { rf := { r with scale := s } } (floatCodecs r.enlisted.items) t w h = .ok (x, h')) :
    minimizeRun (.rf r) s (floatCodecs r.enlisted.items) t w algo h
      = .ok (onlyOne (List.ofFn x), updateControls r.enlisted.items (List.ofFn x) h') := by
  have hg : (minimizeObjective (.rf r) s).1.getControls (floatCodecs r.enlisted.items) h = r.enlisted.items.map (saved h) :=
    getControls_floats { rf := { r with scale := s } } h
  have h1' : (algo (r.enlisted.items.map (saved h))).run (minimizeObjective (.rf r) s).1 (floatCodecs r.enlisted.items) t w h = .ok (x, h') := h1
  have hs : (minimizeObjective (.rf r) s).1.setControls (floatCodecs r.enlisted.items) (List.ofFn x) h'
      = .ok (List.ofFn x, updateControls r.enlisted.items (List.ofFn x) h') := setControls_floats { rf := { r with scale := s } } x h'
  unfold minimizeRun
  simp only [hg, h1', hs]

/-- Multiples of a function with known derivatives. -/
theorem scaled_derivatives {n : Nat} (F : (Fin n → ℝ) → ℝ) (s : ℝ) (x : Fin n → ℝ) (g : Fin n → ℝ)
    (h : HasFDerivAt F (∑ i, g i • (ContinuousLinearMap.proj i : (Fin n → ℝ) →L[ℝ] ℝ)) x) :
    HasFDerivAt (fun x => s * F x) (∑ i, (s * g i) • (ContinuousLinearMap.proj i : (Fin n → ℝ) →L[ℝ] ℝ)) x := by
  have := h.const_mul s
  simpa [Finset.smul_sum, smul_smul] using this

theorem scaled_second {n : Nat} (F : (Fin n → ℝ) → ℝ) (s : ℝ) (x d : Fin n → ℝ) (i : Fin n) (y : ℝ)
    (h : HasDerivAt (fun r : ℝ => fderiv ℝ F (x + r • d) (Pi.single i 1)) y 0) :
    HasDerivAt (fun r : ℝ => fderiv ℝ (fun x => s * F x) (x + r • d) (Pi.single i 1)) (s * y) 0 := by
  have e : (fun r : ℝ => fderiv ℝ (fun x => s * F x) (x + r • d) (Pi.single i 1))
      = fun r : ℝ => s * fderiv ℝ F (x + r • d) (Pi.single i 1) := by
    funext r
    have := congrArg (fun L : (Fin n → ℝ) →L[ℝ] ℝ => L (Pi.single i 1))
      (congrFun (fderiv_const_smul_field (𝕜 := ℝ) (f := F) s) (x + r • d))
    simpa [smul_eq_mul, Pi.smul_def] using this
  rw [e]
  exact h.const_mul s

/-! ## C62 -/

/-- **C62 (part).** `minimize(rf, scale=s)` with any optimiser that asks for gradients and Hessian actions only at the point it evaluated
last, and only where the tape is smooth: `minimize` does exactly what the optimiser does to the mathematical function `s·F` with
its exact derivatives, from the recorded control values on; the result is returned, and is what the controls hold.  Everything else on the
tape is left as of the point the optimiser evaluated last.  If the optimiser raises, so does `minimize`.

`F` is the functional of the recorded program; `G`, `H` its gradient and Hessian action where the tape is smooth.  `last` is the point the
tape was evaluated at before, if it is known.  Missing: optimisers that ask elsewhere (`optimiser_stale_gradient`), and points where
the sweeps are wrong (C06). -/
theorem optimiser_run_partial (t w : FTape) (r : RF ℝ) (h₀ : FHeap) (ready : OptReady t r h₀) (s : ℝ)
    (F : (Fin r.enlisted.items.length → ℝ) → ℝ)
    (hF : ∀ x, (RF.call { r with scale := (1 : ℝ) } t.blocks (.list (List.ofFn x)) h₀).map (·.1) = .ok (F x))
    (G : (Fin r.enlisted.items.length → ℝ) → Fin r.enlisted.items.length → ℝ)
    (hG : ∀ x, SmoothAt t r.enlisted.items h₀ x →
      HasFDerivAt F (∑ i, G x i • (ContinuousLinearMap.proj i : (Fin r.enlisted.items.length → ℝ) →L[ℝ] ℝ)) x)
    (H : (Fin r.enlisted.items.length → ℝ) → (Fin r.enlisted.items.length → ℝ) → Fin r.enlisted.items.length → ℝ)
    (hH : ∀ x d, HessAt t r.J r.enlisted.items s h₀ x d → ∀ i,
      HasDerivAt (fun s : ℝ => fderiv ℝ F (x + s • d) (Pi.single i 1)) (H x d i) 0)
    (algo : List ℝ → Algo r.enlisted.items.length) (last : Option (Fin r.enlisted.items.length → ℝ))
    (hlast : ∀ x, last = some x → ∀ v, saved h₀ v = saved (rfEval t.blocks r.enlisted.items (List.ofFn x) h₀) v)
    (hp : (algo (r.enlisted.items.map (saved h₀))).Protocol (fun x => s * F x) (fun x i => s * G x i) (fun x d i => s * H x d i)
      (SmoothAt t r.enlisted.items h₀) (HessAt t r.J r.enlisted.items s h₀) last) :
    match (algo (r.enlisted.items.map (saved h₀))).ideal (fun x => s * F x) (fun x i => s * G x i) (fun x d i => s * H x d i) with
    | some x => ∃ h', minimizeRun (.rf r) s (floatCodecs r.enlisted.items) t w algo h₀ = .ok (onlyOne (List.ofFn x), h') ∧
        r.enlisted.items.map (saved h') = List.ofFn x ∧
        ∀ y, (algo (r.enlisted.items.map (saved h₀))).lastPoint (fun x => s * F x) (fun x i => s * G x i) (fun x d i => s * H x d i) last = some y →
          ∀ v, v ∉ r.enlisted.items → saved h' v = saved (rfEval t.blocks r.enlisted.items (List.ofFn y) h₀) v
    | none => minimizeRun (.rf r) s (floatCodecs r.enlisted.items) t w algo h₀ = .error .optimizer := by
  let f : NpRF ℝ := { rf := { r with scale := s } }
  have hF' : ∀ x, F x = saved (rfEval t.blocks r.enlisted.items (List.ofFn x) h₀) r.J := by
    intro x
    have h2 := hF x
    have e := rf_call_floats (t := t) { r with scale := (1 : ℝ) } x h₀
    have h3 : Except.ok (saved (rfEval t.blocks r.enlisted.items (List.ofFn x) h₀) r.J * 1) = Except.ok (F x) :=
      (congrArg (Except.map fun q : ℝ × FHeap => q.1) e).symm.trans h2
    have := Except.ok.inj h3
    rw [← this, mul_one]
  have ready' : OptReady t f.rf h₀ :=
    ⟨ready.wf, ready.comp, ready.ne, ready.nodup, ready.functional, ready.controls, ready.independent, ready.flags, ready.marks⟩
  have run := Algo.run_ideal (f := f) ready' w (fun x => s * F x)
    (fun x => by rw [np_call x h₀]; show Except.ok (_ * s) = _; rw [hF' x, mul_comm]; rfl)
    (fun x i => s * G x i) (fun x hs => scaled_derivatives F s x (G x) (hG x hs))
    (fun x d i => s * H x d i) (fun x d hs i => scaled_second F s x d i _ (hH x d hs i))
    (algo (r.enlisted.items.map (saved h₀))) last h₀
    ⟨⟨fun _ => rfl, ready.flags, ready.marks, fun _ _ => rfl⟩, hlast⟩ hp
  cases hi : (algo (r.enlisted.items.map (saved h₀))).ideal (fun x => s * F x) (fun x i => s * G x i) (fun x d i => s * H x d i) with
  | none => exact minimizeRun_error t w r s algo h₀ _ (run.2 hi)
  | some x =>
    obtain ⟨h', h1, s'⟩ := run.1 x hi
    refine ⟨_, minimizeRun_ok t w r s algo h₀ x h' h1, updateControls_floats r.enlisted.items ready.nodup h' s'.base.flags x,
      fun y hy v hv => ?_⟩
    refine Eq.trans ?_ (s'.saved y hy v)
    unfold saved
    rw [updateControls_of_not_mem _ _ _ _ hv]

/-- **C62 (part), IPOPT.** The same for `IPOPTSolver.solve`, except that the controls are not written: the result is returned in the form the
controls were given in, and the whole tape, controls included, is left as of the point evaluated last. -/
theorem ipopt_run_partial (t w : FTape) (f : NpRF ℝ) (h₀ : FHeap) (ready : OptReady t f.rf h₀)
    (F : (Fin f.rf.enlisted.items.length → ℝ) → ℝ)
    (hF : ∀ x, (f.call (floatCodecs f.rf.enlisted.items) t.blocks (List.ofFn x) h₀).map (·.1) = .ok (F x))
    (G : (Fin f.rf.enlisted.items.length → ℝ) → Fin f.rf.enlisted.items.length → ℝ)
    (hG : ∀ x, SmoothAt t f.rf.enlisted.items h₀ x →
      HasFDerivAt F (∑ i, G x i • (ContinuousLinearMap.proj i : (Fin f.rf.enlisted.items.length → ℝ) →L[ℝ] ℝ)) x)
    (H : (Fin f.rf.enlisted.items.length → ℝ) → (Fin f.rf.enlisted.items.length → ℝ) → Fin f.rf.enlisted.items.length → ℝ)
    (hH : ∀ x d, HessAt t f.rf.J f.rf.enlisted.items f.rf.scale h₀ x d → ∀ i,
      HasDerivAt (fun s : ℝ => fderiv ℝ F (x + s • d) (Pi.single i 1)) (H x d i) 0)
    (algo : List ℝ → Algo f.rf.enlisted.items.length) (last : Option (Fin f.rf.enlisted.items.length → ℝ))
    (hlast : ∀ x, last = some x → ∀ v, saved h₀ v = saved (rfEval t.blocks f.rf.enlisted.items (List.ofFn x) h₀) v)
    (hp : (algo (f.rf.enlisted.items.map (saved h₀))).Protocol F G H (SmoothAt t f.rf.enlisted.items h₀)
      (HessAt t f.rf.J f.rf.enlisted.items f.rf.scale h₀) last)
    (x : Fin f.rf.enlisted.items.length → ℝ) (hx : (algo (f.rf.enlisted.items.map (saved h₀))).ideal F G H = some x) :
    ∃ r h', ipoptRun f (floatCodecs f.rf.enlisted.items) t w algo h₀ = .ok (r, h') ∧ f.rf.enlisted.delist (List.ofFn x) = .ok r ∧
      ∀ y, (algo (f.rf.enlisted.items.map (saved h₀))).lastPoint F G H last = some y →
        ∀ v, saved h' v = saved (rfEval t.blocks f.rf.enlisted.items (List.ofFn y) h₀) v := by
  obtain ⟨h', h1, s'⟩ := (Algo.run_ideal ready w F hF G hG H hH (algo (f.rf.enlisted.items.map (saved h₀))) last h₀
    ⟨⟨fun _ => rfl, ready.flags, ready.marks, fun _ _ => rfl⟩, hlast⟩ hp).1 x hx
  have hs : setLocal (List.ofFn x) (floatCodecs f.rf.enlisted.items) 0 = some (List.ofFn x) := by
    rw [(flat_array_floats f.rf.enlisted.items (List.ofFn x)).1]
    simp only [List.length_ofFn, Nat.le_refl, if_true]
    rw [List.take_of_length_le (by simp)]
  obtain ⟨q, hq, -⟩ := delist_items f.rf.controls (List.ofFn x) (by simp; rfl)
  have hq' : f.rf.enlisted.delist (List.ofFn x) = .ok q := hq
  refine ⟨q, h', ?_, hq, s'.saved⟩
  unfold ipoptRun
  rw [getControls_floats, h1]
  simp only []
  rw [hs]
  simp only []
  rw [hq']

/-! ## What can go wrong -/

/-- **The gradient at an earlier point is not available.** `J = x²`: an optimiser that evaluates at `a`, then at `b`, and then asks for the
gradient at `a` gets the one at `b`; returning it, `minimize` returns `2b`, where the exact function gives `2a`. -/
theorem optimiser_stale_gradient (a b : ℝ) :
    let algo : List ℝ → Algo 1 := fun _ => .value (fun _ => a) fun _ => .value (fun _ => b) fun _ =>
      .gradient (fun _ => a) fun g => .done fun _ => g.headD 0
    ((minimizeRun (.rf (sqRF 1)) 1 (floatCodecs [0]) sqTape sqTape algo unitHeap).map (·.1) = .ok (.one (2 * b))) ∧
      ∀ x, (algo x).ideal (fun x => x 0 * x 0) (fun x _ => 2 * x 0) (fun _ d _ => 2 * d 0) = some fun _ => 2 * a := by
  refine ⟨?_, fun x => rfl⟩
  have : ∃ r, (minimizeRun (.rf (sqRF 1)) 1 (floatCodecs [0]) sqTape sqTape
      (fun _ => .value (fun _ : Fin 1 => a) fun _ => .value (fun _ => b) fun _ =>
        .gradient (fun _ => a) fun g => .done fun _ => g.headD 0) unitHeap).map (·.1) = .ok (.one r) ∧ r = 2 * b := by
    refine ⟨_, rfl, ?_⟩
    show (1 : ℝ) * 1 * b + 1 * 1 * b = _
    ring
  obtain ⟨r, h1, rfl⟩ := this
  exact h1

/-- `y = x·x; J = y·y`. -/
def fourthTape : FTape := [.bin .mul 0 0 1, .bin .mul 1 1 2]

/-- **The derivative after `minimize` is not the derivative at the optimum.** `J = x⁴`, an optimiser that evaluates at `b` last but returns `a`:
`minimize` sets the control to `a` and leaves `y = b²`; `rf.derivative()` is then `4ab²` instead of `4a³`. -/
theorem derivative_after_minimize (a b : ℝ) :
    let r : RF ℝ := { J := 2, controls := .single 0, scale := 1 }
    let algo : List ℝ → Algo 1 := fun _ => .value (fun _ => a) fun _ => .value (fun _ => b) fun _ => .done fun _ => a
    ∃ h, minimizeRun (.rf r) 1 (floatCodecs [0]) fourthTape fourthTape algo unitHeap = .ok (.one a, h) ∧
      saved h 0 = a ∧ (r.derivative fourthTape.blocks 1 h).1 = .ok (.one (4 * a * b ^ 2)) := by
  refine ⟨_, rfl, rfl, ?_⟩
  have : ∃ q, (RF.derivative { J := 2, controls := .single 0, scale := (1 : ℝ) } fourthTape.blocks 1
      (updateControls [0] [a] (rfEval fourthTape.blocks [0] [b] (rfEval fourthTape.blocks [0] [a] unitHeap)))).1 = .ok (.one q) ∧
      q = 4 * a * b ^ 2 := by
    refine ⟨_, rfl, ?_⟩
    show ((1 : ℝ) * 1 * (b * b) + 1 * 1 * (b * b)) * a + (1 * 1 * (b * b) + 1 * 1 * (b * b)) * a = _
    ring
  obtain ⟨q, h1, rfl⟩ := this
  exact h1

/-- **IPOPT leaves the controls.** The same optimiser under IPOPT: `a` is returned, the control holds `b`. -/
theorem ipopt_leaves_controls (a b : ℝ) :
    let r : RF ℝ := { J := 2, controls := .single 0, scale := 1 }
    let algo : List ℝ → Algo 1 := fun _ => .value (fun _ => a) fun _ => .value (fun _ => b) fun _ => .done fun _ => a
    ∃ h, ipoptRun { rf := r } (floatCodecs [0]) fourthTape fourthTape algo unitHeap = .ok (.one a, h) ∧ saved h 0 = b :=
  ⟨_, rfl, rfl⟩

/-- **A list of one control comes back without the list** from `minimize`; IPOPT returns a list. -/
theorem minimize_unwraps (a : ℝ) :
    let r : RF ℝ := { J := 1, controls := .list [0], scale := 1 }
    let algo : List ℝ → Algo 1 := fun _ => .done fun _ => a
    (minimizeRun (.rf r) 1 (floatCodecs [0]) sqTape sqTape algo unitHeap).map (·.1) = .ok (.one a) ∧
      (ipoptRun { rf := r } (floatCodecs [0]) sqTape sqTape algo unitHeap).map (·.1) = .ok (.many [a]) :=
  ⟨rfl, rfl⟩

/-- One step of Newton's method. -/
noncomputable def newton : List ℝ → Algo 1 := fun m =>
  .value (fun _ => m.headD 0) fun _ => .gradient (fun _ => m.headD 0) fun g =>
    .hessian (fun _ => m.headD 0) (fun _ => 1) fun k => .done fun _ => m.headD 0 - g.headD 0 / k.headD 0

theorem sqRF_ready (s : ℝ) : OptReady sqTape (sqRF s) unitHeap where
  wf := sqTape_wf
  comp := rfl
  ne := by simp [sqRF, RF.enlisted, Enlist.of]
  nodup := by simp [sqRF, RF.enlisted, Enlist.of]
  functional := ⟨_, List.mem_cons_self, Or.inr (List.mem_singleton.2 rfl)⟩
  controls := fun c hc => by
    have : c = 0 := by simpa [sqRF, RF.enlisted, Enlist.of] using hc
    subst this
    exact ⟨_, List.mem_cons_self, Or.inl List.mem_cons_self⟩
  independent := by
    intro c hc b hb ho
    have hc : c = 0 := by simpa [sqRF, RF.enlisted, Enlist.of] using hc
    subst hc
    have hb : b = (FBlock.bin .mul 0 0 1).toBlock := by simpa [sqTape, FTape.blocks] using hb
    subst hb
    simp [FBlock.toBlock] at ho
  flags := fun _ => rfl
  marks := fun _ => rfl

theorem sq_gradient (x : Fin 1 → ℝ) :
    HasFDerivAt (fun x : Fin 1 → ℝ => x 0 * x 0) (∑ i, (2 * x 0) • (ContinuousLinearMap.proj i : (Fin 1 → ℝ) →L[ℝ] ℝ)) x := by
  have h0 : HasFDerivAt (fun x : Fin 1 → ℝ => x 0) (ContinuousLinearMap.proj 0 : (Fin 1 → ℝ) →L[ℝ] ℝ) x :=
    (ContinuousLinearMap.proj (R := ℝ) (φ := fun _ : Fin 1 => ℝ) 0).hasFDerivAt
  refine (h0.mul h0).congr_fderiv ?_
  simp [two_mul, add_smul]

theorem sq_second (x d : Fin 1 → ℝ) (i : Fin 1) :
    HasDerivAt (fun s : ℝ => fderiv ℝ (fun x : Fin 1 → ℝ => x 0 * x 0) (x + s • d) (Pi.single i 1)) (2 * d 0) 0 := by
  have e : (fun s : ℝ => fderiv ℝ (fun x : Fin 1 → ℝ => x 0 * x 0) (x + s • d) (Pi.single i 1))
      = fun s : ℝ => 2 * (x 0 + s * d 0) := by
    funext s
    rw [(sq_gradient _).fderiv]
    have : i = 0 := Subsingleton.elim _ _
    subst this
    simp
  rw [e]
  simpa using (((hasDerivAt_id (0 : ℝ)).mul_const (d 0)).const_add (x 0)).const_mul 2

theorem sq_smooth (s : ℝ) (x d : Fin 1 → ℝ) : SmoothAt sqTape [0] unitHeap x ∧ HessAt sqTape 1 [0] s unitHeap x d := by
  refine ⟨?_, ?_, ?_, ?_⟩
  all_goals
    intro b hb
    obtain rfl : b = .bin .mul 0 0 1 := by simpa [sqTape] using hb
  · intro _
    trivial
  · intro _
    trivial
  · intro _
    exact FBlock.HessSafe.noDefect (b := .bin .mul 0 0 1) rfl _ _ _ _
  · intro hn
    exact hn.elim

/-- `optimiser_run_partial` applied: `minimize` with Newton's method finds the minimum of `x²` in one step, for every scale but 0. -/
example (s : ℝ) (hs : s ≠ 0) : ∃ h, minimizeRun (.rf (sqRF 1)) s (floatCodecs [0]) sqTape sqTape newton unitHeap = .ok (.one 0, h) ∧
    saved h 0 = 0 := by
  have key := optimiser_run_partial sqTape sqTape (sqRF 1) unitHeap (sqRF_ready 1) s (fun x : Fin 1 → ℝ => x 0 * x 0)
    (fun x : Fin 1 → ℝ => by show Except.ok (x 0 * x 0 * 1) = _; rw [mul_one])
    (fun (x : Fin 1 → ℝ) _ => 2 * x 0) (fun x _ => sq_gradient x)
    (fun (_ d : Fin 1 → ℝ) _ => 2 * d 0) (fun x d _ i => sq_second x d i)
    newton none (fun x hx => by cases hx)
    ⟨rfl, (sq_smooth s _ 0).1, rfl, (sq_smooth s _ _).2, trivial⟩
  obtain ⟨h, h1, h2, -⟩ := key
  have hv : (2 : ℝ) - s * (2 * 2) / (s * (2 * 1)) = 0 := by
    field_simp
    norm_num
  refine ⟨h, h1.trans ?_, ?_⟩
  · show Except.ok (Ret.one ((2 : ℝ) - s * (2 * 2) / (s * (2 * 1))), h) = _
    rw [hv]
  · have h3 : [saved h 0] = [(2 : ℝ) - s * (2 * 2) / (s * (2 * 1))] := h2
    rw [hv] at h3
    exact List.singleton_injective h3

/-- `ipopt_run_partial` applied to the same optimiser: `0` is returned, the control keeps its value `2`. -/
example : ∃ h, ipoptRun { rf := sqRF 1 } (floatCodecs [0]) sqTape sqTape newton unitHeap = .ok (.one 0, h) ∧ saved h 0 = 2 := by
  have hv : (2 : ℝ) - 2 * 2 / (2 * 1) = 0 := by norm_num
  obtain ⟨r, h, h1, h2, h3⟩ := ipopt_run_partial sqTape sqTape { rf := sqRF 1 } unitHeap (sqRF_ready 1) (fun x : Fin 1 → ℝ => x 0 * x 0)
    (fun x : Fin 1 → ℝ => by show Except.ok (x 0 * x 0 * 1) = _; rw [mul_one])
    (fun (x : Fin 1 → ℝ) _ => 2 * x 0) (fun x _ => sq_gradient x)
    (fun (_ d : Fin 1 → ℝ) _ => 2 * d 0) (fun x d _ i => sq_second x d i)
    newton none (fun x hx => by cases hx)
    ⟨rfl, (sq_smooth 1 _ 0).1, rfl, (sq_smooth 1 _ _).2, trivial⟩ (fun _ => 2 - 2 * 2 / (2 * 1)) rfl
  refine ⟨h, ?_, h3 (fun _ => 2) rfl 0⟩
  have h2' : Except.ok (Ret.one (2 - 2 * 2 / (2 * 1) : ℝ)) = Except.ok r := h2
  rw [hv] at h2'
  cases h2'
  exact h1

end Pyadjoint
