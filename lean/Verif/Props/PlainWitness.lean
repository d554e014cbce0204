import Verif.Props.PlainHessians

/-!
# Python numbers in derivatives: the whole session, and where it fails (C42, C60, C61)
-/

namespace Pyadjoint

open PyNum

attribute [local simp] saved_eraseKinds

/-- **C42, C60, C61, whole session.** `rf(x)`, `rf.derivative(adj_input)`, `rf.hessian(dir)` with Python numbers.  If the call returns, the
operations that depend on the controls are twice differentiable, every `/` and `**` on the tape is one of them, no `int` reaches an operand of
`/` or `**`, `adj_input` and `dir` are not `int`s, and the tape has none of the operations with a wrong Hessian method (`HessSafe`), then both
calls return, with the derivative and the second derivative at the given numbers.

Missing: `int`s for `adj_input` and `dir` (`int_adj_input`, `int_direction`), at operands of `/` and `**` (`int_denominator`,
`int_numerator`), and the restrictions of C06. -/
theorem plain_numbers_hessian_partial {t : FTape} (wf : WF t.blocks) {S : BV → Prop} (safe : IntSafe t S) {h : PHeap} (ok : KindsOk t S h)
    (hfl : ∀ v, (h v).isControl = false) (hmk : ∀ v, (h v).marked = false)
    (J : BV) (cs : List BV) (hnd : cs.Nodup) (hind : IndependentControls t.blocks cs) (xs : List PyNum) (hargs : ArgsOk t S cs xs)
    (x₀ : Fin cs.length → ℝ) (hx : xs.map PyNum.val = List.ofFn x₀) (hret : (pyEval t cs xs h).2 = none)
    (hint : HessIntSafe t S)
    (hsmooth : ∀ b ∈ t, (∃ d ∈ b.deps, Reach t.blocks (· ∈ cs) d) →
      b.Smooth2 (saved (rfEval t.blocks cs (List.ofFn x₀) (eraseKinds h))) (Reach t.blocks (· ∈ cs)))
    (hneed : ∀ b ∈ t, b.NeedsAdj → ∃ d ∈ b.deps, Reach t.blocks (· ∈ cs) d)
    (hsafe : ∀ b ∈ t, (∃ d ∈ b.deps, Reach t.blocks (· ∈ cs) d) → b.HessSafe)
    (hon : ∀ c ∈ cs, OnTape t.blocks c ∨ c = J ∨ ((h c).adj = none ∧ (h c).hess = none))
    (scale : ℝ) (adjInput : PyNum) (hin : adjInput.kind ≠ .int)
    (ds : List PyNum) (hds : ∀ d ∈ ds, d.kind ≠ .int) (dir : Fin cs.length → ℝ) (hdir : ds.map PyNum.val = List.ofFn dir) :
    ∃ (grad hess : Fin cs.length → ℝ) (h₁ h₂ : PHeap),
      kDerivative t J cs scale adjInput (pyEval t cs xs h).1 = .ok (List.ofFn grad, h₁) ∧
      kComputeHessian t J cs ds h₁ = .ok (List.ofFn hess, h₂) ∧
      HasFDerivAt (fun x => adjInput.val * rfValue t J cs scale (eraseKinds h) x)
        (∑ i, grad i • (ContinuousLinearMap.proj i : (Fin cs.length → ℝ) →L[ℝ] ℝ)) x₀ ∧
      ∀ i : Fin cs.length, HasDerivAt (fun s : ℝ => fderiv ℝ (fun x => adjInput.val * rfValue t J cs scale (eraseKinds h) x)
        (x₀ + s • dir) (Pi.single i 1)) (hess i) 0 := by
  obtain ⟨ok', _, _, hspec, _⟩ := plain_numbers_partial wf safe ok cs xs hargs
  have he := hspec hret
  rw [hx] at he
  have frame := fun v => rfEval_frame t.blocks cs (List.ofFn x₀) (eraseKinds h) v (fun c _ => hfl c)
  have hmk' : ∀ v, ((pyEval t cs xs h).1 v).marked = false := by
    intro v
    rw [← eraseKinds_marked, he]
    obtain ⟨o, ho⟩ := frame v
    rw [ho]
    exact hmk v
  have asafe : AdjIntSafe t S (Reach t.blocks (· ∈ cs)) := by
    intro b hb
    have := hint b hb
    cases b with
    | un op a o => trivial
    | bin op a c o =>
      cases op with
      | div => exact fun _ => this
      | pow => exact fun _ => this.1
      | _ => trivial
  have hs1 := fun b hb hd => (hsmooth b hb hd).smooth
  obtain ⟨grad, h₁, d1, d2⟩ := plain_numbers_derivative_partial wf safe ok hfl hmk J cs hnd hind xs hargs x₀ hx hret asafe hs1
    (fun c hc => (hon c hc).imp_right (Or.imp_right And.left)) scale adjInput hin
  have opt : ∀ x : Option PyNum, x.map PyNum.val = none → x = none := by rintro (_ | x) hx <;> simp_all
  obtain ⟨grad', h₁', hs, h₂, e1, e2, e3⟩ := hessian_returns_numbers wf J cs hmk' (fun v hv => ok'.saved_int hv) hint
    (by
      intro b hb
      rw [he]
      cases b with
      | un op a o =>
        cases op with
        | log => exact fun hr => ne_of_gt (hsmooth _ hb ⟨a, by simp [FBlock.deps], hr⟩)
        | _ => trivial
      | bin op a c o =>
        cases op with
        | div => exact hsmooth _ hb (hneed _ hb trivial)
        | pow =>
          rcases hsmooth _ hb (hneed _ hb trivial) with h0 | ⟨_, h1⟩
          · exact Or.inl h0
          · exact Or.inr h1
        | _ => trivial)
    (by rw [he]; exact hs1)
    (fun c hc => (hon c hc).imp_right (Or.imp_right fun k => by
      obtain ⟨o, ho⟩ := frame c
      have k1 := congrArg Var.adj (congrFun he c)
      have k2 := congrArg Var.hess (congrFun he c)
      rw [ho] at k1 k2
      simp only [eraseKinds_adj, eraseKinds_hess, k.1, k.2, Option.map_none] at k1 k2
      exact ⟨opt _ k1, opt _ k2⟩))
    (fun b hb hn => by
      obtain ⟨d, hd, hr⟩ := hneed b hb hn
      exact .step (List.mem_map_of_mem hb) (by rw [b.toBlock_deps]; exact hd) hr ((b.mem_outs _).2 rfl))
    scale adjInput hin ds hds
  rw [d1] at e1
  obtain ⟨rfl, rfl⟩ : List.ofFn grad = grad' ∧ h₁ = h₁' := by
    injection e1 with e1
    exact ⟨congrArg Prod.fst e1, congrArg Prod.snd e1⟩
  rw [he, hdir] at e3
  obtain ⟨hess, k1, k2⟩ := hessian_exact_safe t wf J cs hnd (eraseKinds h) hfl hind scale adjInput.val x₀ dir hsmooth
    (fun c hc => (hon c hc).imp_right (Or.imp_right fun k => by simp [k.1, k.2])) hsafe hs (eraseKinds h₂) e3
  refine ⟨grad, hess, h₁, h₂, d1, ?_, d2, k2⟩
  rw [e2, k1]

/-! ## Witnesses -/

/-- **Evaluation works, the derivative does not.** `J = a / x` at the `int` `x = 2`: the evaluation returns, the derivative raises a
`TypeError`. -/
theorem int_denominator (a : ℝ) :
    let t : FTape := [.bin .div 0 1 2]
    let r := pyEval t [1] [⟨.int, 2⟩] (adjHeap fun _ => a)
    r.2 = none ∧ kDerivative t 2 [1] 1 ⟨.float, 1⟩ r.1 = .error .typeError := by
  refine ⟨?_, ?_⟩
  · simp [pyEval, pyReplay, FBlock.pyRecompute, FBlock.recomputeNum, convertOutput, floatMethod, updateControls, setCkpt,
      markControls, adjHeap, saved, FBlock.out, Function.update]
  · simp [pyEval, pyReplay, FBlock.pyRecompute, FBlock.recomputeNum, convertOutput, floatMethod, updateControls, setCkpt,
      markControls, adjHeap, saved, FBlock.out, Function.update]
    rfl

/-- The numerator: `J = n / x` with `n`, `x` and the quotient itself as controls, `n` given as an `int`. -/
theorem int_numerator (f : BV → ℝ) :
    let t : FTape := [.bin .div 0 1 2]
    let r := pyEval t [0, 1, 2] [⟨.int, 3⟩, ⟨.float, 2⟩, ⟨.float, 1⟩] (adjHeap f)
    r.2 = none ∧ kDerivative t 2 [0, 1, 2] 1 ⟨.float, 1⟩ r.1 = .error .typeError := by
  have hr : (pyEval [.bin .div 0 1 2] [0, 1, 2] [⟨.int, 3⟩, ⟨.float, 2⟩, ⟨.float, 1⟩] (adjHeap f)).2 = none := by
    simp [pyEval, pyReplay, FBlock.pyRecompute, updateControls, setCkpt, markControls, adjHeap, FBlock.out, Function.update]
  refine ⟨hr, ?_⟩
  have e : ∀ l : PyNum, l.kind ≠ .int → BOp.adjNum .div ⟨.int, 3⟩ ⟨.float, 2⟩ l 0 = .ok (ofFloat (l.val * (1 / 2))) := fun l hl =>
    Except.bind_ok.2 ⟨_, ftruediv_ok.2 ⟨by simp, by simp, rfl⟩, fmul_ok.2 ⟨hl, rfl⟩⟩
  have e' : ∀ l : PyNum, BOp.adjNum .div ⟨.int, 3⟩ ⟨.float, 2⟩ l 1 = .error .typeError := by
    intro l
    have : fpow ⟨.float, 2⟩ (ofInt 2) = .ok (ofFloat (2 ^ (((2 : ℤ) : ℝ)))) := fpow_ok.2 ⟨by simp, powDom_int (by norm_num), rfl⟩
    simp only [BOp.adjNum, one_ne_zero, if_false, this]
    rfl
  have key : ∀ H : PHeap, (H 2).adj = some ⟨.adj, 1 * 1⟩ → relevant H true [0, 1] = [(0, 0), (1, 1)] → saved H 0 = ⟨.int, 3⟩ →
      saved H 1 = ⟨.float, 2⟩ → (FBlock.bin .div 0 1 2).kEvaluateAdj true H = .error .typeError := by
    intro H h1 h2 h3 h4
    simp only [FBlock.kEvaluateAdj, FBlock.out, FBlock.deps, h1, h2, FBlock.adjNum, h3, h4, List.foldlM_cons]
    rw [e _ (by simp), e']
    rfl
  unfold kDerivative kComputeGradient
  rw [if_neg (by simp)]
  have : ∀ (H : PHeap) (F : PHeap → Except NumErr (List ℝ × PHeap)), (FBlock.bin .div 0 1 2).kEvaluateAdj true H = .error .typeError →
      ((([FBlock.bin .div 0 1 2] : FTape).reverse.foldlM (fun h b => b.kEvaluateAdj true h) H) >>= F) = .error .typeError := by
    intro H F h
    simp only [List.reverse_singleton, List.foldlM_cons, h]
    rfl
  exact this _ _ (key _ rfl rfl rfl rfl)

/-- A seed: `compute_gradient(J, m, adj_value=1)` with an `int` raises a `TypeError` for `J = x * x`, with `1.0` it returns. -/
theorem int_seed (f : BV → ℝ) : let t : FTape := [.bin .mul 0 0 1]
    kComputeGradient t 1 [0] ⟨.int, 1⟩ (adjHeap f) = .error .typeError ∧
    ∃ h, kComputeGradient t 1 [0] ⟨.float, 1⟩ (adjHeap f) = .ok ([f 0 + f 0], h) := by
  refine ⟨rfl, ?_⟩
  apply Exists.intro
  exact (show _ = Except.ok ([1 * f 0 + 1 * f 0], _) from rfl).trans (by rw [one_mul])

/-- `rf.derivative(adj_input=1)` with an `int` raises an `AttributeError`, whatever the functional: the `int` is not converted and has no
`_ad_mul`. -/
theorem int_adj_input (t : FTape) (J : BV) (cs : List BV) (scale r : ℝ) (h : PHeap) :
    kDerivative t J cs scale ⟨.int, r⟩ h = .error .attributeError := rfl

/-- A direction: `rf.hessian(1)` with an `int` raises a `TypeError` for `J = x * x`. -/
theorem int_direction (f : BV → ℝ) : let t : FTape := [.bin .mul 0 0 1]
    ∃ g h, kDerivative t 1 [0] 1 ⟨.float, 1⟩ (adjHeap f) = .ok (g, h) ∧
      kComputeHessian t 1 [0] [⟨.int, 1⟩] h = .error .typeError ∧ ∃ h', kComputeHessian t 1 [0] [⟨.float, 1⟩] h = .ok ([2], h') := by
  refine ⟨_, _, rfl, rfl, ?_⟩
  apply Exists.intro
  exact (show _ = Except.ok ([((1 * 1 * 1 + 0 * f 0) + (1 * 1 * 1 + 0 * f 0) : ℝ)], _) from rfl).trans (by norm_num; rfl)

/-- The values `x` and `y` in variables 0 and 1. -/
def xyHeap (x y : ℝ) : PHeap := fun v => { output := ⟨.adj, if v = 0 then x else if v = 1 then y else 0⟩ }

theorem one_block_gradient (b : FBlock) (H : PHeap) (F : PHeap → Except NumErr (List ℝ × PHeap)) :
    ((([b] : FTape).reverse.foldlM (fun h b => b.kEvaluateAdj true h) H) >>= F) = b.kEvaluateAdj true H >>= F := by
  simp only [List.reverse_singleton, List.foldlM_cons, List.foldlM_nil]
  cases b.kEvaluateAdj true H <;> rfl

theorem one_block_hessian (b : FBlock) (H : PHeap) (F : PHeap → Except NumErr (List ℝ × PHeap)) :
    ((([b] : FTape).reverse.foldlM (fun h b => b.kEvaluateHessian true h) H) >>= F) = b.kEvaluateHessian true H >>= F := by
  simp only [List.reverse_singleton, List.foldlM_cons, List.foldlM_nil]
  cases b.kEvaluateHessian true H <;> rfl

theorem one_block_tangent (b : FBlock) (H : PHeap) (F : PHeap → Except NumErr (List ℝ × PHeap)) :
    (kEvaluateTlm [b] true H >>= F) = b.kEvaluateTlm true H >>= F := by
  simp only [kEvaluateTlm, List.foldlM_cons, List.foldlM_nil]
  cases b.kEvaluateTlm true H <;> rfl

/-- **C61 is false for `x ** 0.0` at `0.0`.** The function is constant (every evaluation with a float returns `1`), but its derivative at
`0.0` raises `ZeroDivisionError`: the adjoint component computes `0.0 ** -1.0`. -/
theorem pow_zero_derivative (x : ℝ) (hx : 0 ≤ x) : let t : FTape := [.bin .pow 0 1 2]
    (let r := pyEval t [0] [⟨.float, x⟩] (xyHeap 0 0)
     r.2 = none ∧ (saved r.1 2).val = 1) ∧
    kDerivative t 2 [0] 1 ⟨.float, 1⟩ (xyHeap 0 0) = .error .zeroDivision := by
  have hx' : ¬ x < 0 := not_lt.2 hx
  refine ⟨⟨?_, ?_⟩, ?_⟩
  · simp [pyEval, pyReplay, FBlock.pyRecompute, FBlock.recomputeNum, convertOutput, floatMethod, updateControls, setCkpt,
      markControls, xyHeap, saved, FBlock.out, Function.update, hx']
  · simp [pyEval, pyReplay, FBlock.pyRecompute, FBlock.recomputeNum, convertOutput, floatMethod, updateControls, setCkpt,
      markControls, xyHeap, saved, FBlock.out, Function.update, BOp.val, hx']
  · unfold kDerivative kComputeGradient
    rw [if_neg (by simp)]
    have key : ∀ H : PHeap, (H 2).adj = some ⟨.adj, 1 * 1⟩ → relevant H true [0, 1] = [(0, 0)] → saved H 0 = ⟨.adj, 0⟩ →
        saved H 1 = ⟨.adj, 0⟩ → (FBlock.bin .pow 0 1 2).kEvaluateAdj true H = .error .zeroDivision := by
      intro H h1 h2 h3 h4
      simp only [FBlock.kEvaluateAdj, FBlock.out, FBlock.deps, h1, h2, FBlock.adjNum, h3, h4, List.foldlM_cons, BOp.adjNum, if_true]
      have : fpow ⟨.adj, 0⟩ ((⟨.adj, 0⟩ : PyNum).subInt 1) = .error .zeroDivision := by simp [fpow]
      rw [this]
      rfl
    simp only
    rw [one_block_gradient, key _ rfl rfl rfl rfl]
    rfl

/-- **C61 is false for the Hessian of `x ** 1.0` at `0.0`.** The function is the identity and its derivative is returned, but `rf.hessian`
raises `ZeroDivisionError`: it computes `0.0 ** -1.0` for a term with the factor `y * (y - 1) = 0`. -/
theorem pow_one_hessian : let t : FTape := [.bin .pow 0 1 2]
    ∃ h, kDerivative t 2 [0] 1 ⟨.float, 1⟩ (xyHeap 0 1) = .ok ([1], h) ∧ kComputeHessian t 2 [0] [⟨.float, 1⟩] h = .error .zeroDivision := by
  have p1 : fpow ⟨.adj, 0⟩ ((⟨.adj, 1⟩ : PyNum).subInt 1) = .ok (ofFloat 1) := by
    refine fpow_ok.2 ⟨by simp, ?_, ?_⟩
    · simpa using powDom_two (x := 0) (n := 0)
    · simp
  have p2 : fpow ⟨.adj, 0⟩ ((⟨.adj, 1⟩ : PyNum).subInt 2) = .error .zeroDivision := by
    unfold fpow
    rw [if_neg (by simp), if_pos ⟨rfl, by norm_num [PyNum.subInt]⟩]
  have a1 : ∀ H : PHeap, (H 2).adj = some ⟨.adj, 1 * 1⟩ → relevant H true [0, 1] = [(0, 0)] → saved H 0 = ⟨.adj, 0⟩ →
      saved H 1 = ⟨.adj, 1⟩ → (FBlock.bin .pow 0 1 2).kEvaluateAdj true H = .ok (addAdj H 0 (ofFloat 1)) := by
    intro H h1 h2 h3 h4
    simp only [FBlock.kEvaluateAdj, FBlock.out, FBlock.deps, h1, h2, FBlock.adjNum, h3, h4, List.foldlM_cons, BOp.adjNum, if_true, p1]
    show Except.ok (addAdj H 0 (ofFloat ((1 * 1 : ℝ) * 1 * 1))) = _
    norm_num
  have a2 : ∀ H : PHeap, (H 0).tlm = some ⟨.float, 1⟩ → (H 1).tlm = none → saved H 0 = ⟨.adj, 0⟩ →
      saved H 1 = ⟨.adj, 1⟩ → (FBlock.bin .pow 0 1 2).kEvaluateTlm true H = .ok (addTlm H 2 (ofFloat 1)) := by
    intro H h1 h2 h3 h4
    simp only [FBlock.kEvaluateTlm, h1, h3, h4, addTlmWith, p1]
    show addTlmWith (addTlm H 2 (ofFloat ((1 : ℝ) * 1 * 1))) 2 (addTlm H 2 (ofFloat ((1 : ℝ) * 1 * 1)) 1).tlm _ = _
    have : (addTlm H 2 (ofFloat ((1 : ℝ) * 1 * 1)) 1).tlm = none := h2
    rw [this]
    show Except.ok (addTlm H 2 (ofFloat ((1 : ℝ) * 1 * 1))) = _
    norm_num
  have a3 : ∀ H : PHeap, (H 2).hess = some ⟨.adj, 0⟩ → (H 2).adj = some ⟨.adj, 1 * 1⟩ → (H 0).tlm = some ⟨.float, 1⟩ →
      saved H 0 = ⟨.adj, 0⟩ → saved H 1 = ⟨.adj, 1⟩ → (FBlock.bin .pow 0 1 2).kEvaluateHessian true H = .error .zeroDivision := by
    intro H h1 h2 h3 h4 h5
    simp only [FBlock.kEvaluateHessian, h1, kHessianPow, h2, h3, h4, h5, addHessWith, p2]
    rfl
  unfold kDerivative kComputeGradient kComputeHessian
  simp only
  rw [if_neg (by simp)]
  rw [one_block_gradient, a1 _ rfl rfl rfl rfl]
  refine ⟨_, rfl, ?_⟩
  rw [one_block_tangent, a2 _ rfl rfl rfl rfl]
  refine Eq.trans (one_block_hessian _ _ _) ?_
  rw [a3 _ rfl rfl rfl rfl rfl]
  rfl

/-! ## The hypotheses can be met -/

/-- `v₂ = v₀ / v₁ ; v₃ = v₂ ** v₁ ; v₄ = v₃ - v₀`: a session with floats at `v₀ = 3`, `v₁ = 2`. -/
def exS : FTape := [.bin .div 0 1 2, .bin .pow 2 1 3, .bin .sub 3 0 4]

theorem exS_wf : WF exS.blocks := by
  refine ⟨?_, ?_, ?_⟩
  · intro b hb; simp [exS, FTape.blocks, FBlock.toBlock] at hb; rcases hb with rfl | rfl | rfl <;> simp
  · intro b hb; simp [exS, FTape.blocks, FBlock.toBlock] at hb; rcases hb with rfl | rfl | rfl <;> simp
  · simp [exS, FTape.blocks, FBlock.toBlock]

theorem exS_values : let H := rfEval exS.blocks [0, 1] [3, 2] (eraseKinds (adjHeap fun _ => 1))
    saved H 1 = 2 ∧ saved H 2 = 3 / 2 := ⟨rfl, rfl⟩

example : ∃ (grad hess : Fin 2 → ℝ) (h₁ h₂ : PHeap),
    kDerivative exS 4 [0, 1] 2 ⟨.float, 1⟩ (pyEval exS [0, 1] [⟨.float, 3⟩, ⟨.adj, 2⟩] (adjHeap fun _ => 1)).1 = .ok (List.ofFn grad, h₁) ∧
    kComputeHessian exS 4 [0, 1] [⟨.float, 1⟩, ⟨.float, -1⟩] h₁ = .ok (List.ofFn hess, h₂) := by
  obtain ⟨grad, hess, h₁, h₂, e1, e2, _⟩ := plain_numbers_hessian_partial exS_wf (intSafe_none exS) (adjHeap_ok exS _ fun _ => 1)
    (fun _ => rfl) (fun _ => rfl) 4 [0, 1] (by simp)
    (by
      intro c hc b hb ho
      simp only [List.mem_cons, List.not_mem_nil, or_false] at hc
      simp [exS, FTape.blocks, FBlock.toBlock] at hb
      rcases hc with rfl | rfl <;> rcases hb with rfl | rfl | rfl <;> simp at ho)
    [⟨.float, 3⟩, ⟨.adj, 2⟩]
    (argsOk_floats _ _ _ _ (by simp) (by simp [exS, FBlock.out]))
    ![3, 2] (by simp)
    (by
      refine (plain_numbers_partial exS_wf (intSafe_none exS) (adjHeap_ok exS _ fun _ => 1) [0, 1] [⟨.float, 3⟩, ⟨.adj, 2⟩]
        (argsOk_floats _ _ _ _ (by simp) (by simp [exS, FBlock.out]))).2.2.2.2 fun b hb => Or.inr ?_
      simp [exS] at hb
      rcases hb with rfl | rfl | rfl <;>
        norm_num [FBlock.InDomain, exS_values])
    (by intro b hb; cases b with | un => trivial | bin op => cases op <;> simp)
    (by
      intro b hb _
      simp [exS] at hb
      rcases hb with rfl | rfl | rfl <;>
        norm_num [FBlock.Smooth2, BOp.Smooth2, exS_values])
    (by
      intro b hb _
      simp [exS] at hb
      rcases hb with rfl | rfl | rfl
      · exact ⟨1, by simp [FBlock.deps], .base (by simp)⟩
      · exact ⟨1, by simp [FBlock.deps], .base (by simp)⟩
      · exact ⟨0, by simp [FBlock.deps], .base (by simp)⟩)
    (by
      intro b hb _
      simp [exS] at hb
      rcases hb with rfl | rfl | rfl <;> trivial)
    (by
      intro c hc
      exact Or.inr (Or.inr ⟨rfl, rfl⟩))
    2 ⟨.float, 1⟩ (by simp) [⟨.float, 1⟩, ⟨.float, -1⟩] (by simp) ![1, -1] (by simp)
  exact ⟨grad, hess, h₁, h₂, e1, e2⟩

theorem exS_independent : IndependentControls exS.blocks [0, 1] := by
  intro c hc b hb ho
  simp only [List.mem_cons, List.not_mem_nil, or_false] at hc
  simp [exS, FTape.blocks, FBlock.toBlock] at hb
  rcases hc with rfl | rfl <;> rcases hb with rfl | rfl | rfl <;> simp at ho

theorem exS_returns : (pyEval exS [0, 1] [⟨.float, 3⟩, ⟨.adj, 2⟩] (adjHeap fun _ => 1)).2 = none := by
  refine (plain_numbers_partial exS_wf (intSafe_none exS) (adjHeap_ok exS _ fun _ => 1) [0, 1] [⟨.float, 3⟩, ⟨.adj, 2⟩]
    (argsOk_floats _ _ _ _ (by simp) (by simp [exS, FBlock.out]))).2.2.2.2 fun b hb => Or.inr ?_
  simp [exS] at hb
  rcases hb with rfl | rfl | rfl <;> norm_num [FBlock.InDomain, exS_values]

theorem exS_smooth : ∀ b ∈ exS, (∃ d ∈ b.deps, Reach exS.blocks (· ∈ [0, 1]) d) →
    b.Smooth (saved (rfEval exS.blocks [0, 1] (List.ofFn ![3, 2]) (eraseKinds (adjHeap fun _ => 1)))) (Reach exS.blocks (· ∈ [0, 1])) := by
  intro b hb _
  simp [exS] at hb
  rcases hb with rfl | rfl | rfl <;> norm_num [FBlock.Smooth, BOp.Smooth, exS_values]

/-- `plain_numbers_derivative_partial` and `tangent_returns` apply there as well. -/
example : ∃ (grad : Fin 2 → ℝ) (h₁ h₂ : PHeap),
    kDerivative exS 4 [0, 1] 2 ⟨.float, 1⟩ (pyEval exS [0, 1] [⟨.float, 3⟩, ⟨.adj, 2⟩] (adjHeap fun _ => 1)).1 = .ok (List.ofFn grad, h₁) ∧
    kEvaluateTlm exS false (seedTlm [0, 1] [⟨.float, 1⟩, ⟨.float, -1⟩] (resetVariables (exS.map FBlock.shape) .tlm
      (pyEval exS [0, 1] [⟨.float, 3⟩, ⟨.adj, 2⟩] (adjHeap fun _ => 1)).1)) = .ok h₂ := by
  have hadj : AdjIntSafe exS (fun _ => False) (Reach exS.blocks (· ∈ [0, 1])) := by
    intro b hb; cases b with | un => trivial | bin op => cases op <;> simp
  obtain ⟨grad, h₁, e₁, -⟩ := plain_numbers_derivative_partial exS_wf (intSafe_none exS) (adjHeap_ok exS _ fun _ => 1)
    (fun _ => rfl) (fun _ => rfl) 4 [0, 1] (by simp) exS_independent [⟨.float, 3⟩, ⟨.adj, 2⟩]
    (argsOk_floats _ _ _ _ (by simp) (by simp [exS, FBlock.out])) ![3, 2] (by simp) exS_returns hadj exS_smooth
    (fun c hc => Or.inr (Or.inr rfl)) 2 ⟨.float, 1⟩ (by simp)
  obtain ⟨h₂, e₂, -⟩ := tangent_returns exS_wf [0, 1] (by simp) (fun _ => rfl) exS_independent [⟨.float, 3⟩, ⟨.adj, 2⟩] (intSafe_none exS)
    (adjHeap_ok exS _ fun _ => 1) (argsOk_floats _ _ _ _ (by simp) (by simp [exS, FBlock.out])) ![3, 2] (by simp) exS_returns hadj exS_smooth
    [⟨.float, 1⟩, ⟨.float, -1⟩] (by simp) ![1, -1] (by simp)
  exact ⟨grad, h₁, h₂, e₁, e₂⟩

/-- `gradient_returns` and `hessian_returns_numbers` apply to `J = -x`. -/
example : let t : FTape := [.un .neg 0 1]
    (∃ r h', kComputeGradient t 1 [0] ⟨.float, 1⟩ (adjHeap fun _ => 1) = .ok (r, h')) ∧
    ∃ grad h₁ hs h₂, kDerivative t 1 [0] 2 ⟨.float, 1⟩ (adjHeap fun _ => 1) = .ok (grad, h₁) ∧
      kComputeHessian t 1 [0] [⟨.float, 1⟩] h₁ = .ok (hs, h₂) := by
  intro t
  have wf : WF t.blocks := by
    refine ⟨?_, ?_, ?_⟩
    · intro b hb; simp [t, FTape.blocks, FBlock.toBlock] at hb; subst hb; simp
    · intro b hb; simp [t, FTape.blocks, FBlock.toBlock] at hb; subst hb; simp
    · simp [t, FTape.blocks, FBlock.toBlock]
  have hS : ∀ v, (saved (adjHeap fun _ => 1) v).kind = .int → False := fun v hv => by cases hv
  constructor
  · obtain ⟨r, h', e, -⟩ := gradient_returns wf 1 [0] ⟨.float, 1⟩ (by simp) (adjHeap fun _ => 1) (fun _ => rfl) (S := fun _ => False) hS
      (by intro b hb; simp [t] at hb; subst hb; trivial)
      (by intro b hb _; simp [t] at hb; subst hb; trivial)
    exact ⟨r, h', e⟩
  · obtain ⟨grad, h₁, hs, h₂, e₁, e₂, -⟩ := hessian_returns_numbers wf 1 [0] (h := adjHeap fun _ => 1) (fun _ => rfl) (S := fun _ => False) hS
      (by intro b hb; simp [t] at hb; subst hb; trivial)
      (by intro b hb; simp [t] at hb; subst hb; trivial)
      (by intro b hb _; simp [t] at hb; subst hb; trivial)
      (fun c hc => Or.inr (Or.inr ⟨rfl, rfl⟩))
      (by intro b hb hn; simp [t] at hb; subst hb; cases hn)
      2 ⟨.float, 1⟩ (by simp) [⟨.float, 1⟩] (by simp)
    exact ⟨grad, h₁, hs, h₂, e₁, e₂⟩

/-- `J = exp(x) / y` accepts an `int` for `x` in the evaluation, the derivative, the tangent and the Hessian. -/
example : let t : FTape := [.un .exp 0 2, .bin .div 2 1 3]
    ∀ R, IntSafe t (· = 0) ∧ AdjIntSafe t (· = 0) R ∧ HessIntSafe t (· = 0) := by
  refine fun R => ⟨?_, ?_, ?_⟩ <;>
  · intro b hb
    simp at hb
    rcases hb with rfl | rfl <;> simp

end Pyadjoint
