import Verif.Props.Taylor

/-!
# Taylor tests of recorded programs (C34)

The Taylor test applied to a `ReducedFunctional` over a tape of floats: the directional derivative it computes is that of the
function it evaluates, so a second-order remainder is reported as such, and `taylor_to_dict` leaves the functional
evaluated at the point of the test.
-/

namespace Pyadjoint

open Real

theorem FTape.total (t : FTape) : ∀ b ∈ t.blocks, ∀ inputs i, inputs.length = b.deps.length →
    i < b.outs.length → (b.recomputeC inputs i).isSome := by
  intro b hb inputs i hl hi
  obtain ⟨fb, _, rfl⟩ := List.mem_map.1 hb
  cases fb with
  | un op a o =>
    simp only [FBlock.toBlock, List.length_cons, List.length_nil] at hl
    obtain ⟨x, rfl⟩ := List.length_eq_one_iff.1 hl
    cases op <;> simp [FBlock.toBlock]
  | bin op a c o =>
    simp only [FBlock.toBlock, List.length_cons, List.length_nil] at hl
    obtain ⟨x, y, rfl⟩ := List.length_eq_two.1 hl
    cases op <;> simp [FBlock.toBlock]

/-- The states between the calls of a Taylor test: no markings, outputs and what the tape does not compute as in `h₀`. -/
structure Between (t : FTape) (cs : List BV) (h₀ h : FHeap) : Prop where
  control : ∀ v, (h v).isControl = false
  marked : ∀ v, (h v).marked = false
  output : ∀ v, (h v).output = (h₀ v).output
  kept : ∀ v, Kept t.blocks cs v → (h v).ckpt = (h₀ v).ckpt

/-- The function a reduced functional evaluates: the functional's value after assigning the controls and replaying the tape. -/
noncomputable def RF.function (rf : RF ℝ) (t : FTape) (h₀ : FHeap) (xs : List ℝ) : ℝ :=
  saved (rfEval t.blocks rf.controls.elems xs h₀) rf.J * rf.scale

theorem Between.eval {t : FTape} (wf : WF t.blocks) {cs : List BV} {h₀ h : FHeap} (hb : Between t cs h₀ h) (xs : List ℝ) :
    Between t cs h₀ (rfEval t.blocks cs xs h) := by
  refine ⟨fun v => ?_, fun v => ?_, fun v => ?_, fun v hv => ?_⟩
  · obtain ⟨c, hc⟩ := rfEval_frame t.blocks cs xs h v (fun c _ => hb.control c)
    rw [hc]; exact hb.control v
  · obtain ⟨c, hc⟩ := rfEval_frame t.blocks cs xs h v (fun c _ => hb.control c)
    rw [hc]; exact hb.marked v
  · obtain ⟨c, hc⟩ := rfEval_frame t.blocks cs xs h v (fun c _ => hb.control c)
    rw [hc]; exact hb.output v
  · rw [← hb.kept v hv]
    obtain ⟨hc, h1 | ⟨b, hbm, hvo, ho⟩⟩ := hv
    · rw [rfEval_leaf t.blocks cs xs h v hc h1]
    · obtain ⟨i, hi, rfl⟩ := List.mem_iff_getElem.1 hvo
      exact rfEval_block_control wf cs xs h b hbm ho i hi hc

theorem Between.saved_eval {t : FTape} (wf : WF t.blocks) {cs : List BV} (hnd : cs.Nodup) {h₀ h : FHeap}
    (h0 : ∀ v, (h₀ v).isControl = false) (hb : Between t cs h₀ h) (xs : List ℝ) (hl : xs.length = cs.length) (v : BV) :
    saved (rfEval t.blocks cs xs h) v = saved (rfEval t.blocks cs xs h₀) v :=
  evaluation_history_independent wf cs hnd xs hl t.total h h₀ hb.control h0 hb.output hb.kept v

theorem RF.call_eq (rf : RF ℝ) (t : FTape) (x : Arg ℝ) (h : FHeap) (hl : x.elems.length = rf.controls.elems.length) :
    rf.call t.blocks x h = .ok (saved (rfEval t.blocks rf.controls.elems x.elems h) rf.J * rf.scale,
      rfEval t.blocks rf.controls.elems x.elems h) := by
  unfold RF.call RF.enlisted
  rw [enlist_items, enlist_items]
  unfold rfCall
  rw [if_neg (by simpa using hl)]

theorem taylor_evaluates (rf : RF ℝ) (t : FTape) (wf : WF t.blocks) (hnd : rf.controls.elems.Nodup) (h₀ : FHeap)
    (h0 : ∀ v, (h₀ v).isControl = false) :
    Evaluates (rf.taylor t) (Between t rf.controls.elems h₀) rf.controls.elems.length (rf.function t h₀) := by
  intro x h hb hl
  refine ⟨rfEval t.blocks rf.controls.elems x.elems h, ?_, hb.eval wf _⟩
  show liftErr (rf.call t.blocks x h) = _
  rw [RF.call_eq rf t x h hl]
  simp only [liftErr, RF.function]
  rw [hb.saved_eval wf hnd h0 x.elems hl]

theorem Between.derivative {t : FTape} {cs : List BV} {h₀ h : FHeap} (hb : Between t cs h₀ h) (rf : RF ℝ) (a : ℝ) :
    Between t cs h₀ (rf.derivative t.blocks a h).2 := by
  have key := derivative_undisturbed rf t.blocks a h hb.control hb.marked
  refine ⟨fun v => ?_, fun v => ?_, fun v => ?_, fun v hv => ?_⟩ <;> obtain ⟨x, hx⟩ := key v <;> rw [hx]
  · exact hb.control v
  · exact hb.marked v
  · exact hb.output v
  · exact hb.kept v hv

theorem Between.hessian {t : FTape} (wf : WF t.blocks) {cs : List BV} {h₀ h : FHeap} (hb : Between t cs h₀ h) (rf : RF ℝ)
    (d : Arg ℝ) {r : Ret ℝ} {h' : FHeap} (hok : rf.hessian t d h = .ok (r, h')) : Between t cs h₀ h' := by
  have key := hessian_undisturbed rf t wf d h hb.marked r h' hok
  refine ⟨fun v => ?_, fun v => ?_, fun v => ?_, fun v hv => ?_⟩ <;> obtain ⟨x, y, hx⟩ := key v <;> rw [hx]
  · exact hb.control v
  · exact hb.marked v
  · exact hb.output v
  · exact hb.kept v hv

/-- The derivative the test computes after `J(m)` is the derivative of the evaluated function along the direction. -/
theorem taylor_directional (rf : RF ℝ) (hcomp : rf.components = none) (t : FTape) (wf : WF t.blocks)
    (hnd : rf.controls.elems.Nodup) (hne : rf.controls.elems ≠ []) (hind : IndependentControls t.blocks rf.controls.elems)
    (hon : ∀ c ∈ rf.controls.elems, OnTape t.blocks c) (h₀ : FHeap) (h0 : ∀ v, (h₀ v).isControl = false)
    (hmk : ∀ v, (h₀ v).marked = false) (m h : Arg ℝ) (hm : m.elems.length = rf.controls.elems.length)
    (hl : h.elems.length = m.elems.length)
    (hsmooth : ∀ b ∈ t, (∃ d ∈ b.deps, Reach t.blocks (· ∈ rf.controls.elems) d) →
      b.Smooth (saved (rfEval t.blocks rf.controls.elems m.elems h₀)) (Reach t.blocks (· ∈ rf.controls.elems))) :
    ∃ d : ℝ, HasDerivAt (fun e : ℝ => rf.function t h₀ (line m.elems h.elems e)) d 0 ∧
      ∀ y s₁, (rf.taylor t).call m h₀ = .ok (y, s₁) →
        ∃ s₂, directional (· * ·) (rf.taylor t) m.elems.length h.elems none s₁ = .ok (d, s₂) ∧
          Between t rf.controls.elems h₀ s₂ := by
  set cs := rf.controls.elems with hcs
  let x₀ : Fin cs.length → ℝ := fun i => m.elems[i.val]'(by rw [hm]; exact i.isLt)
  let u : Fin cs.length → ℝ := fun i => h.elems[i.val]'(by rw [hl, hm]; exact i.isLt)
  have hx₀ : List.ofFn x₀ = m.elems := by
    apply List.ext_getElem
    · simp [hm]
    · intro i h1 h2; simp [x₀]
  have hu : List.ofFn u = h.elems := by
    apply List.ext_getElem
    · simp [hl, hm]
    · intro i h1 h2; simp [u]
  have hline : ∀ e : ℝ, line m.elems h.elems e = List.ofFn (x₀ + e • u) := by
    intro e
    apply List.ext_getElem
    · simp [line, hl, hm]
    · intro i h1 h2; simp [line, x₀, u]
  obtain ⟨grad, hg, hd⟩ := gradient_exact_adjfloat t wf rf.J cs hnd h₀ h0 hind rf.scale 1 x₀ (by rw [hx₀]; exact hsmooth)
    (fun c hc => Or.inl (hon c hc)) _ _ (show rfCall t.blocks rf.J cs rf.scale (List.ofFn x₀) h₀ = some (_, _) by
      unfold rfCall; rw [if_neg (by simp)])
  have hlin : HasDerivAt (fun e : ℝ => x₀ + e • u) u 0 := by
    have h1 : HasDerivAt (fun e : ℝ => e • u) ((1 : ℝ) • u) 0 := (hasDerivAt_id (0 : ℝ)).smul_const u
    rw [one_smul] at h1
    exact h1.const_add x₀
  have hcomp' := HasFDerivAt.comp_hasDerivAt (f := fun e : ℝ => x₀ + e • u) (0 : ℝ)
    (l := fun x => 1 * rfValue t rf.J cs rf.scale h₀ x) (by simpa using hd) hlin
  refine ⟨_, hcomp'.congr_deriv rfl |>.congr_of_eventuallyEq (Filter.Eventually.of_forall fun e => ?_), ?_⟩
  · show rf.function t h₀ (line m.elems h.elems e) = 1 * rfValue t rf.J cs rf.scale h₀ (x₀ + e • u)
    rw [one_mul, rfValue_eq, hline]
    rfl
  · intro y s₁ hy
    have hb₀ : Between t cs h₀ h₀ := ⟨h0, hmk, fun _ => rfl, fun _ _ => rfl⟩
    have hs1 : s₁ = rfEval t.blocks cs m.elems h₀ := by
      change liftErr (rf.call t.blocks m h₀) = _ at hy
      rw [RF.call_eq rf t m h₀ hm] at hy
      simp only [liftErr, Except.ok.injEq, Prod.mk.injEq] at hy
      exact hy.2.symm
    have hb₁ : Between t cs h₀ s₁ := by rw [hs1]; exact hb₀.eval wf _
    refine ⟨(rf.derivative t.blocks 1 s₁).2, ?_, hb₁.derivative rf 1⟩
    have hgl : (computeGradient t.blocks rf.J cs (1 * rf.scale) s₁).1 = List.ofFn grad := by
      rw [← hg, hs1, hx₀]; rfl
    have hder : ∃ r : Ret ℝ, (rf.derivative t.blocks 1 s₁).1 = .ok r ∧ r.items = List.ofFn grad := by
      unfold RF.derivative RF.enlisted
      rw [hcomp]
      simp only [enlist_items]
      rw [← hcs, if_neg (by simpa using hne)]
      simp only []
      rw [hgl]
      unfold finishDerivative Enlist.delist
      have hlen : (List.ofFn grad).length = cs.length := by simp
      have hne' : List.ofFn grad ≠ [] := by
        intro he; rw [he] at hlen; exact hne (List.length_eq_zero_iff.1 hlen.symm)
      rw [if_neg (by simpa using hne'), enlist_listed]
      generalize List.ofFn grad = G at hlen hne'
      generalize hcc : rf.controls = cc at hcs
      cases cc with
      | single a =>
        simp only [Arg.elems] at hcs
        rw [hcs] at hlen
        obtain ⟨g, rfl⟩ := List.length_eq_one_iff.1 hlen
        exact ⟨_, rfl, rfl⟩
      | list l => exact ⟨_, rfl, rfl⟩
      | tuple l => exact ⟨_, rfl, rfl⟩
      | enlist en => exact ⟨_, rfl, rfl⟩
    obtain ⟨r, hr1, hr2⟩ := hder
    have : (rf.taylor t).derivative s₁ = .ok (r, (rf.derivative t.blocks 1 s₁).2) := by
      show withState (rf.derivative t.blocks 1 s₁) = _
      generalize rf.derivative t.blocks 1 s₁ = X at hr1
      obtain ⟨X1, X2⟩ := X
      simp only at hr1
      subst hr1
      rfl
    simp only [directional]
    rw [this]
    simp only
    rw [if_neg (by rw [hr2]; simp [hm])]
    congr 2
    unfold dotSum
    rw [hr2, ← hu]
    simp only [_root_.sum_apply, _root_.smul_apply, ContinuousLinearMap.proj_apply, smul_eq_mul]
    have : List.zipWith (fun x1 x2 : ℝ => x1 * x2) (List.ofFn u) (List.ofFn grad) = List.ofFn fun i => u i * grad i := by
      apply List.ext_getElem
      · simp
      · intro i h1 h2; simp
    rw [this, List.sum_ofFn]
    exact Finset.sum_congr rfl fun i _ => mul_comm _ _

/-- **C34, recorded programs.** For every recorded program, point and direction along which it is exactly quadratic (not affine),
and differentiable operation by operation at the point: `taylor_test(rf, m, h)` returns exactly 2, whatever was computed
before. -/
theorem taylor_test_quadratic (rf : RF ℝ) (hcomp : rf.components = none) (t : FTape) (wf : WF t.blocks)
    (hnd : rf.controls.elems.Nodup) (hne : rf.controls.elems ≠ []) (hind : IndependentControls t.blocks rf.controls.elems)
    (hon : ∀ c ∈ rf.controls.elems, OnTape t.blocks c) (h₀ : FHeap) (h0 : ∀ v, (h₀ v).isControl = false)
    (hmk : ∀ v, (h₀ v).marked = false) (m h : Arg ℝ) (hm : m.elems.length = rf.controls.elems.length)
    (hl : h.elems.length = m.elems.length)
    (hsmooth : ∀ b ∈ t, (∃ d ∈ b.deps, Reach t.blocks (· ∈ rf.controls.elems) d) →
      b.Smooth (saved (rfEval t.blocks rf.controls.elems m.elems h₀)) (Reach t.blocks (· ∈ rf.controls.elems)))
    (g a : ℝ) (ha : a ≠ 0)
    (hF : ∀ e, rf.function t h₀ (line m.elems h.elems e) = rf.function t h₀ m.elems + e * g + a * e ^ 2) :
    ∃ h', taylorTest (· * ·) (rf.taylor t) m h none 0 h₀ = .ok (((2 : ℝ) : EReal), h') := by
  obtain ⟨d, hd, hdir⟩ := taylor_directional rf hcomp t wf hnd hne hind hon h₀ h0 hmk m h hm hl hsmooth
  have hg : d = g := by
    refine hd.unique ?_
    have : (fun e : ℝ => rf.function t h₀ (line m.elems h.elems e)) =
        fun e => rf.function t h₀ m.elems + e * g + a * e ^ 2 := funext hF
    rw [this]
    have h1 : HasDerivAt (fun e : ℝ => e * g) (1 * g) 0 := (hasDerivAt_id (0 : ℝ)).mul_const g
    have h2 : HasDerivAt (fun e : ℝ => a * e ^ 2) (a * (2 * 0)) 0 := by
      have := (hasDerivAt_pow 2 (0 : ℝ)).const_mul a
      simpa using this
    have h3 := (h1.const_add (rf.function t h₀ m.elems)).add h2
    exact h3.congr_deriv (by simp)
  have hJ := taylor_evaluates rf t wf hnd h₀ h0
  rw [← hm] at hJ
  obtain ⟨h', hok, -⟩ := taylor_test_order (dot := (· * ·)) m h hl hJ none 0 d h₀ ⟨h0, hmk, fun _ => rfl, fun _ _ => rfl⟩ hdir
    a ha 2 (fun i _ => by rw [hF, hg]; ring)
  exact ⟨h', by simpa using hok⟩

/-- **C34, recorded programs in general.** If the remainders of the program's first-order Taylor expansion along the direction, with
its true directional derivative `L`, lie between `c₁ eps²` and `c₂ eps²`, then `taylor_test(rf, m, h)` returns a number
within `log2 (c₂ / c₁)` of 2. -/
theorem taylor_test_second_order (rf : RF ℝ) (hcomp : rf.components = none) (t : FTape) (wf : WF t.blocks)
    (hnd : rf.controls.elems.Nodup) (hne : rf.controls.elems ≠ []) (hind : IndependentControls t.blocks rf.controls.elems)
    (hon : ∀ c ∈ rf.controls.elems, OnTape t.blocks c) (h₀ : FHeap) (h0 : ∀ v, (h₀ v).isControl = false)
    (hmk : ∀ v, (h₀ v).marked = false) (m h : Arg ℝ) (hm : m.elems.length = rf.controls.elems.length)
    (hl : h.elems.length = m.elems.length)
    (hsmooth : ∀ b ∈ t, (∃ d ∈ b.deps, Reach t.blocks (· ∈ rf.controls.elems) d) →
      b.Smooth (saved (rfEval t.blocks rf.controls.elems m.elems h₀)) (Reach t.blocks (· ∈ rf.controls.elems)))
    (L c₁ c₂ : ℝ) (hc : 0 < c₁) (hL : HasDerivAt (fun e : ℝ => rf.function t h₀ (line m.elems h.elems e)) L 0)
    (hF : ∀ i < 4, c₁ * eps i ^ 2 ≤ |rf.function t h₀ (line m.elems h.elems (eps i)) - rf.function t h₀ m.elems - eps i * L| ∧
      |rf.function t h₀ (line m.elems h.elems (eps i)) - rf.function t h₀ m.elems - eps i * L| ≤ c₂ * eps i ^ 2) :
    ∃ (x : ℝ) (h' : FHeap), taylorTest (· * ·) (rf.taylor t) m h none 0 h₀ = .ok ((x : EReal), h') ∧
      |x - 2| ≤ logb 2 (c₂ / c₁) := by
  obtain ⟨d, hd, hdir⟩ := taylor_directional rf hcomp t wf hnd hne hind hon h₀ h0 hmk m h hm hl hsmooth
  have hg : d = L := hd.unique hL
  have hJ := taylor_evaluates rf t wf hnd h₀ h0
  rw [← hm] at hJ
  obtain ⟨x, h', hok, -, hx⟩ := taylor_test_bounds (dot := (· * ·)) m h hl hJ none 0 d h₀ ⟨h0, hmk, fun _ => rfl, fun _ _ => rfl⟩ hdir
    c₁ c₂ hc 2 (fun i hi => by
      have := hF i hi
      unfold remainder
      simp only [mul_zero, sub_zero]
      rw [hg]
      exact this)
  exact ⟨x, h', hok, by simpa using hx⟩

/-- A `taylor_to_dict` that returned: the calls it made. -/
theorem taylorToDict_ok (rf : RF ℝ) (t : FTape) (wf : WF t.blocks) (hnd : rf.controls.elems.Nodup) (h₀ : FHeap)
    (h0 : ∀ v, (h₀ v).isControl = false) (hmk : ∀ v, (h₀ v).marked = false) (m h : Arg ℝ) (D : TaylorDict) (h' : FHeap)
    (hm : m.elems.length = rf.controls.elems.length) (hok : taylorToDict (· * ·) (rf.taylor t) m h h₀ = .ok (D, h')) :
    h.elems.length = m.elems.length ∧
    ∃ y s1 d s2 H s3 s4, (rf.taylor t).call m h₀ = .ok (y, s1) ∧
      directional (· * ·) (rf.taylor t) m.elems.length h.elems none s1 = .ok (d, s2) ∧
      rf.hessian t (.enlist (Enlist.of h)) s2 = .ok (H, s3) ∧ Between t rf.controls.elems h₀ s4 ∧
      h' = rfEval t.blocks rf.controls.elems m.elems s4 ∧ D.eps = epsilons ∧
      D.residual = dictResiduals (rf.function t h₀ m.elems) d (dotSum (· * ·) h.elems H.items)
        (epsilons.map fun e => rf.function t h₀ (line m.elems h.elems e)) ∧
      dictRates D.residual = .ok D.rate := by
  have hJ := taylor_evaluates rf t wf hnd h₀ h0
  set cs := rf.controls.elems with hcs
  have hb₀ : Between t cs h₀ h₀ := ⟨h0, hmk, fun _ => rfl, fun _ _ => rfl⟩
  unfold taylorToDict at hok
  simp only [enlist_items] at hok
  split at hok
  · cases hok
  rename_i hl
  have hl : h.elems.length = m.elems.length := by simpa using hl
  obtain ⟨s1, h1, hi1⟩ := hJ m h₀ hb₀ hm
  rw [h1] at hok
  simp only at hok
  split at hok
  · cases hok
  rename_i d s2 hdir
  have hi2 : Between t cs h₀ s2 := by
    simp only [directional] at hdir
    split at hdir
    · cases hdir
    · rename_i r s2' hder
      split at hdir
      · cases hdir
      · cases hdir
        change withState (rf.derivative t.blocks 1 s1) = _ at hder
        have := hi1.derivative rf 1
        generalize rf.derivative t.blocks 1 s1 = X at hder this
        obtain ⟨X1, X2⟩ := X
        cases X1 with
        | error e => cases hder
        | ok a => cases hder; exact this
  split at hok
  · cases hok
  rename_i H s3 hhess
  have hh : rf.hessian t (.enlist (Enlist.of h)) s2 = .ok (H, s3) := by
    change liftErr (rf.hessian t _ s2) = _ at hhess
    cases hh : rf.hessian t (.enlist (Enlist.of h)) s2 with
    | error e => rw [hh] at hhess; cases hhess
    | ok p =>
      rw [hh] at hhess
      cases hhess
      rfl
  have hi3 : Between t cs h₀ s3 := hi2.hessian wf rf _ hh
  obtain ⟨s4, h4, hi4⟩ := perturbedValues_ok hJ m h.elems hl hm epsilons s3 hi3
  rw [h4] at hok
  simp only at hok
  split at hok
  · cases hok
  rename_i rs hrates
  split at hok
  · cases hok
  rename_i y s5 hcall
  cases hok
  have hs5 : h' = rfEval t.blocks cs m.elems s4 := by
    change liftErr (rf.call t.blocks m s4) = _ at hcall
    rw [RF.call_eq rf t m s4 hm] at hcall
    simp only [liftErr, Except.ok.injEq, Prod.mk.injEq] at hcall
    exact hcall.2.symm
  exact ⟨hl, _, s1, d, s2, H, s3, s4, h1, hdir, hh, hi4, hs5, rfl, rfl, hrates⟩

/-- **C34, state afterwards.** Whenever `taylor_to_dict(rf, m, h)` returns, all values of the tape are those of `rf(m)`, and
nothing else a user relies on has changed (`Between`). -/
theorem taylor_to_dict_leaves_m (rf : RF ℝ) (t : FTape) (wf : WF t.blocks) (hnd : rf.controls.elems.Nodup) (h₀ : FHeap)
    (h0 : ∀ v, (h₀ v).isControl = false) (hmk : ∀ v, (h₀ v).marked = false) (m h : Arg ℝ) (D : TaylorDict) (h' : FHeap)
    (hm : m.elems.length = rf.controls.elems.length) (hok : taylorToDict (· * ·) (rf.taylor t) m h h₀ = .ok (D, h')) :
    (∀ v, saved h' v = saved (rfEval t.blocks rf.controls.elems m.elems h₀) v) ∧ Between t rf.controls.elems h₀ h' := by
  obtain ⟨-, y, s1, d, s2, H, s3, s4, -, -, -, hi4, rfl, -⟩ := taylorToDict_ok rf t wf hnd h₀ h0 hmk m h D h' hm hok
  exact ⟨fun v => hi4.saved_eval wf hnd h0 m.elems hm v, hi4.eval wf _⟩

/-- **C34, the dictionary.** The residuals `R0` and `R1` that `taylor_to_dict(rf, m, h)` returns are the remainders of orders 0 and 1 of the
evaluated function along the direction, `R1` with its true derivative; the rates are the convergence rates of the residuals. -/
theorem taylor_to_dict_residuals (rf : RF ℝ) (hcomp : rf.components = none) (t : FTape) (wf : WF t.blocks)
    (hnd : rf.controls.elems.Nodup) (hne : rf.controls.elems ≠ []) (hind : IndependentControls t.blocks rf.controls.elems)
    (hon : ∀ c ∈ rf.controls.elems, OnTape t.blocks c) (h₀ : FHeap) (h0 : ∀ v, (h₀ v).isControl = false)
    (hmk : ∀ v, (h₀ v).marked = false) (m h : Arg ℝ) (hm : m.elems.length = rf.controls.elems.length)
    (hsmooth : ∀ b ∈ t, (∃ d ∈ b.deps, Reach t.blocks (· ∈ rf.controls.elems) d) →
      b.Smooth (saved (rfEval t.blocks rf.controls.elems m.elems h₀)) (Reach t.blocks (· ∈ rf.controls.elems)))
    (L : ℝ) (hL : HasDerivAt (fun e : ℝ => rf.function t h₀ (line m.elems h.elems e)) L 0)
    (D : TaylorDict) (h' : FHeap) (hok : taylorToDict (· * ·) (rf.taylor t) m h h₀ = .ok (D, h')) :
    D.eps = (List.range 4).map (fun i => 0.01 / 2 ^ i) ∧
    D.residual 0 = D.eps.map (fun e => |rf.function t h₀ (line m.elems h.elems e) - rf.function t h₀ m.elems|) ∧
    D.residual 1 = D.eps.map (fun e => |rf.function t h₀ (line m.elems h.elems e) - rf.function t h₀ m.elems - e * L|) ∧
    ∀ i, convergenceRates (D.residual i) D.eps = .ok (D.rate i) := by
  obtain ⟨hl, y, s1, d, s2, H, s3, s4, hcall, hd, -, -, -, heps, hres, hrate⟩ :=
    taylorToDict_ok rf t wf hnd h₀ h0 hmk m h D h' hm hok
  obtain ⟨d', hd', hdir⟩ := taylor_directional rf hcomp t wf hnd hne hind hon h₀ h0 hmk m h hm hl hsmooth
  obtain ⟨s2', hd2, -⟩ := hdir y s1 hcall
  rw [hd] at hd2
  cases hd2
  have hdL : d = L := hd'.unique hL
  subst hdL
  have hz : ∀ (f : ℝ → ℝ → ℝ) (g : ℝ → ℝ) (es : List ℝ), List.zipWith f es (es.map g) = es.map fun e => f e (g e) := by
    intro f g es
    induction es with
    | nil => rfl
    | cons e es ih => simp [ih]
  refine ⟨heps, ?_, ?_, ?_⟩
  · rw [hres, heps]; exact hz _ _ _
  · rw [hres, heps]; exact hz _ _ _
  · rw [heps]
    unfold dictRates at hrate
    split at hrate
    · cases hrate
    rename_i r0 e0
    split at hrate
    · cases hrate
    rename_i r1 e1
    split at hrate
    · cases hrate
    rename_i r2 e2
    simp only [Except.ok.injEq] at hrate
    intro i
    rw [← hrate]
    fin_cases i
    · exact e0
    · exact e1
    · exact e2

/-! ### Example: `J = x * x` recorded -/

theorem sqTape_independent : IndependentControls sqTape.blocks [0] := by
  intro c hc b hb ho
  simp only [FTape.blocks, sqTape, List.map_cons, List.map_nil, List.mem_cons, List.not_mem_nil, or_false] at hb hc
  subst hb hc
  simp [FBlock.toBlock] at ho

/-- The hypotheses of `taylor_test_quadratic` hold for the tape of `J = x * x` at every point. -/
example (x : ℝ) : ∃ h', taylorTest (· * ·) ((sqRF 1).taylor sqTape) (.single x) (.single 1) none 0 unitHeap =
    .ok (((2 : ℝ) : EReal), h') := by
  refine taylor_test_quadratic (sqRF 1) rfl sqTape sqTape_wf (by simp [sqRF, Arg.elems]) (by simp [sqRF, Arg.elems])
    sqTape_independent ?_ unitHeap (fun _ => rfl) (fun _ => rfl) (.single x) (.single 1) rfl rfl ?_ (2 * x) 1 one_ne_zero ?_
  · intro c hc
    have : c = 0 := by simpa [sqRF, Arg.elems] using hc
    subst this
    exact ⟨_, List.mem_cons_self, Or.inl (by exact List.mem_cons_self)⟩
  · intro b hb _
    simp only [sqTape, List.mem_cons, List.not_mem_nil, or_false] at hb
    subst hb
    trivial
  · intro e
    show (x + e * 1) * (x + e * 1) * 1 = x * x * 1 + e * (2 * x) + 1 * e ^ 2
    ring

/-- `ReducedFunctional(exp(x), Control(x))`. -/
noncomputable def expRF : RF ℝ := { J := 1, controls := .single 0, scale := 1 }

/-- The tape of `J = exp x`. -/
def expTape : FTape := [.un .exp 0 1]

theorem expRF_function (x : ℝ) : expRF.function expTape unitHeap [x] = exp x * 1 := rfl

theorem rates_ok (r : ℝ → ℝ) (hr : ∀ i < 4, 0 < r (eps i)) : ∃ rs, convergenceRates (epsilons.map r) epsilons = .ok rs := by
  let E : Nat → ℝ := fun i => if i < 4 then r (eps i) else 1
  have hE : ∀ i, 0 < E i := by
    intro i
    simp only [E]
    split
    · rename_i hi; exact hr i hi
    · exact one_pos
  have hEr : epsilons.map r = (List.range 4).map E := by
    rw [epsilons_range, List.map_map]
    apply List.map_congr_left
    intro i hi
    have : i < 4 := List.mem_range.1 hi
    simp [E, this]
  rw [hEr]
  exact ⟨_, convergence_rates_log2 E hE 0.01 (by norm_num) 3⟩

/-- `taylor_to_dict` returns if derivative and Hessian do and no residual vanishes. -/
theorem taylor_to_dict_returns {C S : Type*} [Add C] [SMul ℝ C] {dot : C → C → ℝ} {J : TaylorObj C S} {Inv : S → Prop}
    {F : List C → ℝ} (m h : Arg C) (hl : h.elems.length = m.elems.length) (hJ : Evaluates J Inv m.elems.length F) (d Hd : ℝ)
    (s : S) (hs : Inv s)
    (hd : ∀ y s₁, J.call m s = .ok (y, s₁) → ∃ s₂ H s₃, directional dot J m.elems.length h.elems none s₁ = .ok (d, s₂) ∧
      J.hessian (.enlist (Enlist.of h)) s₂ = .ok (H, s₃) ∧ dotSum dot h.elems H.items = Hd ∧ Inv s₃)
    (h0 : ∀ i < 4, F (line m.elems h.elems (eps i)) ≠ F m.elems)
    (h1 : ∀ i < 4, F (line m.elems h.elems (eps i)) - F m.elems - eps i * d ≠ 0)
    (h2 : ∀ i < 4, remainder F m.elems h.elems d Hd (eps i) ≠ 0) :
    ∃ D s', taylorToDict dot J m h s = .ok (D, s') := by
  obtain ⟨s1, e1, hi1⟩ := hJ m s hs rfl
  obtain ⟨s2, H, s3, e2, e3, rfl, hi3⟩ := hd _ _ e1
  obtain ⟨s4, e4, hi4⟩ := perturbedValues_ok hJ m h.elems hl rfl epsilons s3 hi3
  obtain ⟨s5, e5, -⟩ := hJ m s4 hi4 rfl
  have hz : ∀ (f : ℝ → ℝ → ℝ) (g : ℝ → ℝ) (es : List ℝ), List.zipWith f es (es.map g) = es.map fun e => f e (g e) := by
    intro f g es
    induction es with
    | nil => rfl
    | cons e es ih => simp [ih]
  obtain ⟨r0, k0⟩ := rates_ok (fun e => |F (line m.elems h.elems e) - F m.elems|) fun i hi => abs_pos.2 (sub_ne_zero.2 (h0 i hi))
  obtain ⟨r1, k1⟩ := rates_ok (fun e => |F (line m.elems h.elems e) - F m.elems - e * d|) fun i hi => abs_pos.2 (h1 i hi)
  obtain ⟨r2, k2⟩ := rates_ok (remainder F m.elems h.elems d (dotSum dot h.elems H.items))
    fun i hi => lt_of_le_of_ne (abs_nonneg _) (Ne.symm (h2 i hi))
  unfold taylorToDict
  simp only [enlist_items]
  rw [if_neg (by simpa using hl), e1]
  simp only
  rw [e2]
  simp only
  rw [e3]
  simp only
  rw [e4]
  simp only
  rw [← hz (fun _ y => |y - F m.elems|) (fun e => F (line m.elems h.elems e))] at k0
  rw [← hz (fun e y => |y - F m.elems - e * d|) (fun e => F (line m.elems h.elems e))] at k1
  rw [← zipWith_residual] at k2
  have hrates : ∃ rs, dictRates (dictResiduals (F m.elems) d (dotSum dot h.elems H.items)
      (epsilons.map fun e => F (line m.elems h.elems e))) = .ok rs := by
    unfold dictRates dictResiduals
    simp only
    rw [k0, k1, k2]
    exact ⟨_, rfl⟩
  obtain ⟨rs, hrs⟩ := hrates
  rw [hrs]
  simp only
  rw [e5]
  exact ⟨_, _, rfl⟩

theorem expTape_wf : WF expTape.blocks := by
  refine ⟨?_, ?_, ?_⟩
  · intro b hb
    simp only [FTape.blocks, expTape, List.map_cons, List.map_nil, List.mem_cons, List.not_mem_nil, or_false] at hb
    subst hb
    simp [FBlock.toBlock]
  · simp [FTape.blocks, expTape, FBlock.toBlock]
  · simp [FTape.blocks, expTape, FBlock.toBlock]

/-- `taylor_to_dict` returns for the tape of `J = exp x` (whose Hessian action is 0, see C06, so that no residual vanishes). -/
example (x : ℝ) : ∃ D h', taylorToDict (· * ·) (expRF.taylor expTape) (.single x) (.single 1) unitHeap = .ok (D, h') := by
  have hconv : ∀ i, 0 < exp (x + eps i * 1) * 1 - exp x * 1 - eps i * exp x := by
    intro i
    have := add_one_lt_exp (eps_pos i).ne'
    rw [exp_add]
    have := exp_pos x
    simp only [mul_one]
    nlinarith
  have hb₀ : Between expTape [0] unitHeap unitHeap := ⟨fun _ => rfl, fun _ => rfl, fun _ => rfl, fun _ _ => rfl⟩
  refine taylor_to_dict_returns (Inv := Between expTape [0] unitHeap) (F := expRF.function expTape unitHeap) (.single x)
    (.single 1) rfl (taylor_evaluates expRF expTape expTape_wf (by simp [expRF, Arg.elems]) unitHeap fun _ => rfl) (exp x) 0
    unitHeap hb₀ ?_ ?_ ?_ ?_
  · intro y s₁ hy
    change Except.ok (_, _) = _ at hy
    cases hy
    have hd : ∃ d s₂, d = exp x ∧ directional (· * ·) (expRF.taylor expTape) 1 [1] none
        (rfEval expTape.blocks [0] [x] unitHeap) = .ok (d, s₂) ∧
        s₂ = (expRF.derivative expTape.blocks 1 (rfEval expTape.blocks [0] [x] unitHeap)).2 := by
      refine ⟨_, _, ?_, rfl, rfl⟩
      show 1 * (exp x * (1 * 1)) + 0 = _
      ring
    obtain ⟨d, s₂, rfl, hdir, hs2⟩ := hd
    have hh : ∃ r h', expRF.hessian expTape (.enlist (Enlist.of (.single 1))) s₂ = .ok (.one r, h') ∧ r = 0 := by
      rw [hs2]
      refine ⟨_, _, rfl, ?_⟩
      show Real.exp x * 0 = 0
      simp
    obtain ⟨r, h', hh, rfl⟩ := hh
    refine ⟨s₂, .one 0, h', hdir, ?_, by simp [dotSum, Ret.items, Arg.elems], ?_⟩
    · have := congrArg liftErr hh
      exact this
    · rw [hs2] at hh
      exact ((hb₀.eval expTape_wf [x]).derivative expRF 1).hessian expTape_wf expRF _ hh
  · intro i _
    show exp (x + eps i * 1) * 1 ≠ exp x * 1
    have := hconv i
    have := mul_pos (eps_pos i) (exp_pos x)
    intro h
    linarith
  · intro i _
    exact (hconv i).ne'
  · intro i _
    unfold remainder
    rw [mul_zero, sub_zero]
    exact (abs_pos.2 (hconv i).ne').ne'

end Pyadjoint
