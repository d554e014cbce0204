import Verif.Props.PlainSweeps

/-!
# When the derivatives of a functional are returned (C42, C60, C61)
-/

namespace Pyadjoint

open PyNum

attribute [local simp] saved_eraseKinds

/-! ## Adjoint sweep -/

theorem powDom_pos {x : ℝ} (hx : 0 < x) (y : ℝ) : PowDom x y :=
  ⟨fun h => absurd h.1 hx.ne', fun h => absurd h (not_lt.2 hx.le)⟩

theorem powDom_int {x : ℝ} {n : ℤ} (h : x ≠ 0 ∨ 0 ≤ n) : PowDom x n := by
  refine ⟨fun hx => ?_, fun _ => ⟨n, rfl⟩⟩
  rcases h with h | h
  · exact h hx.1
  · exact absurd hx.2 (not_lt.2 (by exact_mod_cast h))

theorem powDom_two {x : ℝ} {n : ℕ} : PowDom x (n : ℤ) := powDom_int (Or.inr (Int.natCast_nonneg n))

theorem UOp.adjNum_returns {op : UOp} {x l : PyNum} (hl : l.kind ≠ .int) (hs : op.Smooth x.val) :
    ∃ v, v.kind ≠ .int ∧ op.adjNum x l = .ok v := by
  cases op with
  | neg => exact ⟨_, by simp, fneg_ok.2 ⟨hl, rfl⟩⟩
  | exp => exact ⟨_, by simp [Kind.join_int], rfl⟩
  | log =>
    refine ⟨_, ?_, div_ok.2 ⟨ne_of_gt hs, rfl⟩⟩
    simp only; split <;> simp

/-- Operands that must not be an `int` for the adjoint component `idx`. -/
def BOp.AdjKinds (op : BOp) (x y : PyNum) (idx : Nat) : Prop :=
  match op with
  | .div => idx ≠ 0 → x.kind ≠ .int ∧ y.kind ≠ .int
  | .pow => x.kind ≠ .int
  | _ => True

theorem returns_float {x : Except NumErr PyNum} (h : ∃ r, x = .ok (ofFloat r)) : ∃ v, v.kind ≠ .int ∧ x = .ok v :=
  let ⟨r, hr⟩ := h
  ⟨ofFloat r, by simp, hr⟩

theorem BOp.adjNum_returns {op : BOp} {x y l : PyNum} {idx : Nat} {vb : Prop} (hl : l.kind ≠ .int) (hs : op.Smooth x.val y.val vb)
    (hv : idx ≠ 0 → vb) (hk : op.AdjKinds x y idx) : ∃ v, v.kind ≠ .int ∧ op.adjNum x y l idx = .ok v := by
  cases op with
  | add => exact ⟨_, hl, rfl⟩
  | sub =>
    by_cases hi : idx = 0
    · exact ⟨l, hl, by simp [BOp.adjNum, hi]⟩
    · exact ⟨ofFloat (-l.val), by simp, by simp only [BOp.adjNum, hi, if_false]; exact fneg_ok.2 ⟨hl, rfl⟩⟩
  | mul => exact ⟨_, by simp, fmul_ok.2 ⟨hl, rfl⟩⟩
  | div =>
    by_cases hi : idx = 0
    · apply returns_float
      apply Exists.intro
      · simp only [BOp.adjNum, hi, if_true]
        exact Except.bind_ok.2 ⟨_, ftruediv_ok.2 ⟨by simp, hs, rfl⟩, fmul_ok.2 ⟨hl, rfl⟩⟩
    · obtain ⟨hx, hy⟩ := hk hi
      have hp : PowDom y.val (ofInt 2).val := powDom_int (Or.inr (by norm_num))
      have hne : (ofFloat (y.val ^ (ofInt 2).val)).val ≠ 0 := by
        rw [ofFloat_val, ofInt_val, show ((2 : ℤ) : ℝ) = (((2 : ℕ) : ℤ) : ℝ) by norm_num, rpow_int]
        exact pow_ne_zero _ hs
      apply returns_float
      apply Exists.intro
      · simp only [BOp.adjNum, hi, if_false]
        exact Except.bind_ok.2 ⟨_, fpow_ok.2 ⟨hy, hp, rfl⟩, Except.bind_ok.2 ⟨_, ftruediv_ok.2 ⟨hx, hne, rfl⟩,
          Except.bind_ok.2 ⟨_, fneg_ok.2 ⟨by simp, rfl⟩, fmul_ok.2 ⟨hl, rfl⟩⟩⟩⟩
  | pow =>
    by_cases hi : idx = 0
    · have hp : PowDom x.val (y.subInt 1).val := by
        rcases hs with hs | ⟨_, n, hn, hs⟩
        · exact powDom_pos hs _
        · rw [subInt_val, hn, show ((n : ℝ) - ((1 : ℤ) : ℝ)) = ((n - 1 : ℤ) : ℝ) by push_cast; ring]
          exact powDom_int (hs.imp_right fun h => by omega)
      apply returns_float
      apply Exists.intro
      · simp only [BOp.adjNum, hi, if_true]
        exact Except.bind_ok.2 ⟨_, fmul_ok.2 ⟨hl, rfl⟩, Except.bind_ok.2 ⟨_, fpow_ok.2 ⟨hk, hp, rfl⟩, fmul_ok.2 ⟨by simp, rfl⟩⟩⟩
    · have hp : PowDom x.val y.val := by
        rcases hs with hs | ⟨h, _⟩
        · exact powDom_pos hs _
        · exact absurd (hv hi) h
      apply returns_float
      apply Exists.intro
      · simp only [BOp.adjNum, hi, if_false]
        exact Except.bind_ok.2 ⟨_, fmul_ok.2 ⟨hl, rfl⟩, Except.bind_ok.2 ⟨_, fpow_ok.2 ⟨hk, hp, rfl⟩, fmul_ok.2 ⟨by simp, rfl⟩⟩⟩
  | min => exact ⟨_, by split <;> split <;> first | exact hl | simp, rfl⟩
  | max => exact ⟨_, by split <;> split <;> first | exact hl | simp, rfl⟩

/-- No adjoint value on the tape is an `int`. -/
def AdjFloats (t : FTape) (h : PHeap) : Prop := ∀ v, OnTape t.blocks v → ∀ a, (h v).adj = some a → a.kind ≠ .int

theorem addAdj_fields (h : PHeap) (w : BV) (a : PyNum) (v : BV) : saved (addAdj h w a) v = saved h v ∧
    (addAdj h w a v).marked = (h v).marked ∧ (addAdj h w a v).output = (h v).output ∧ (addAdj h w a v).ckpt = (h v).ckpt := by
  unfold addAdj saved
  by_cases hv : v = w
  · subst hv; simp
  · rw [Function.update_of_ne hv]; simp

theorem AdjFloats.addAdj {t : FTape} {h : PHeap} (hf : AdjFloats t h) (w : BV) {a : PyNum} (ha : a.kind ≠ .int) :
    AdjFloats t (addAdj h w a) := by
  intro v hv x hx
  unfold Pyadjoint.addAdj at hx
  by_cases e : v = w
  · subst e
    rw [Function.update_self] at hx
    simp only at hx
    cases hy : (h v).adj with
    | none => rw [hy] at hx; cases hx; exact ha
    | some y =>
      rw [hy] at hx
      cases hx
      rw [add_kind, ne_eq, Kind.join_int]
      exact fun k => ha k.2
  · rw [Function.update_of_ne e] at hx
    exact hf v hv x hx

theorem FBlock.kEvaluateAdj_returns {t : FTape} {b : FBlock} (hb : b ∈ t) {m : Bool} {h : PHeap} (hf : AdjFloats t h)
    (hc : ∀ p ∈ relevant h m b.deps, ∀ l : PyNum, l.kind ≠ .int → ∃ v : PyNum, v.kind ≠ .int ∧ b.adjNum h l p.2 = .ok v) :
    ∃ h', b.kEvaluateAdj m h = .ok h' ∧ AdjFloats t h' ∧ ∀ v, saved h' v = saved h v ∧ (h' v).marked = (h v).marked ∧
      (h' v).output = (h v).output ∧ (h' v).ckpt = (h v).ckpt := by
  unfold FBlock.kEvaluateAdj
  cases hx : (h b.out).adj with
  | none => exact ⟨h, rfl, hf, fun v => ⟨rfl, rfl, rfl, rfl⟩⟩
  | some l =>
    have hl : l.kind ≠ .int := hf b.out ⟨b.toBlock, List.mem_map_of_mem hb, Or.inr (by cases b <;> simp [FBlock.toBlock, FBlock.out])⟩ l hx
    have key : ∀ (r : List (BV × Nat)) (g : PHeap), AdjFloats t g → (∀ p ∈ r, p ∈ relevant h m b.deps) →
        ∃ h', r.foldlM (fun (h' : PHeap) p => do
          let v ← b.adjNum h l p.2
          pure (addAdj h' p.1 v)) g = Except.ok h' ∧ AdjFloats t h' ∧ ∀ v, saved h' v = saved g v ∧ (h' v).marked = (g v).marked ∧
      (h' v).output = (g v).output ∧ (h' v).ckpt = (g v).ckpt := by
      intro r
      induction r with
      | nil => intro g hg _; exact ⟨g, rfl, hg, fun v => ⟨rfl, rfl, rfl, rfl⟩⟩
      | cons p r ih =>
        intro g hg hr
        obtain ⟨v, hv, hv'⟩ := hc p (hr p (by simp)) l hl
        obtain ⟨h', h1, h2, h3⟩ := ih (addAdj g p.1 v) (hg.addAdj p.1 hv) fun q hq => hr q (by simp [hq])
        refine ⟨h', ?_, h2, fun w => ?_⟩
        · rw [List.foldlM_cons, hv']
          exact h1
        · obtain ⟨a1, a2, a3, a4⟩ := h3 w
          obtain ⟨b1, b2, b3, b4⟩ := addAdj_fields g p.1 v w
          exact ⟨a1.trans b1, a2.trans b2, a3.trans b3, a4.trans b4⟩
    exact key _ h hf fun p hp => hp

/-- Variables that may hold an `int` (`S`) if the variables in `R` depend on the controls: no denominator and no numerator over a
denominator in `R`, and no base of a power with base or exponent in `R`. -/
def AdjIntSafe (t : FTape) (S R : BV → Prop) : Prop :=
  ∀ b ∈ t, match b with
    | .bin .div a c _ => R c → ¬ S a ∧ ¬ S c
    | .bin .pow a c _ => R a ∨ R c → ¬ S a
    | _ => True

theorem FBlock.adjNum_returns {t : FTape} {b : FBlock} (hb : b ∈ t) {S R : BV → Prop} (safe : AdjIntSafe t S R) {h : PHeap}
    (hS : ∀ v, (saved h v).kind = .int → S v) (hsmooth : (∃ d ∈ b.deps, R d) → b.Smooth (saved (eraseKinds h)) R)
    (v : BV) (i : Nat) (hi : b.deps[i]? = some v) (hv : R v) (l : PyNum) (hl : l.kind ≠ .int) :
    ∃ w : PyNum, w.kind ≠ .int ∧ b.adjNum h l i = .ok w := by
  have hs := hsmooth ⟨v, List.mem_of_getElem? hi, hv⟩
  cases b with
  | un op a o =>
    refine UOp.adjNum_returns hl ?_
    simpa [FBlock.Smooth] using hs
  | bin op a c o =>
    have hs' : op.Smooth (saved h a).val (saved h c).val (R c) := by simpa [FBlock.Smooth] using hs
    have h1 : i ≠ 0 → v = c := by
      intro h0
      match i, hi with
      | 0, _ => exact absurd rfl h0
      | 1, hi => simpa [FBlock.deps, eq_comm] using hi
      | n + 2, hi => simp [FBlock.deps] at hi
    have h0 : i = 0 → v = a := by
      rintro rfl
      simpa [FBlock.deps, eq_comm] using hi
    refine BOp.adjNum_returns hl hs' (fun h => h1 h ▸ hv) ?_
    have sb := safe _ hb
    cases op with
    | div =>
      intro h
      obtain ⟨k1, k2⟩ := sb (h1 h ▸ hv)
      exact ⟨fun k => k1 (hS _ k), fun k => k2 (hS _ k)⟩
    | pow =>
      have : R a ∨ R c := by
        by_cases h : i = 0
        · exact Or.inl (h0 h ▸ hv)
        · exact Or.inr (h1 h ▸ hv)
      exact fun k => sb this (hS _ k)
    | _ => trivial

theorem adjoint_sweep_returns {t : FTape} {m : Bool} (l : List FBlock) (hl : ∀ b ∈ l, b ∈ t) (h : PHeap) (hf : AdjFloats t h)
    (hc : ∀ b ∈ l, ∀ g : PHeap, (∀ v, saved g v = saved h v ∧ (g v).marked = (h v).marked) →
      ∀ p ∈ relevant g m b.deps, ∀ l : PyNum, l.kind ≠ .int → ∃ v : PyNum, v.kind ≠ .int ∧ b.adjNum g l p.2 = .ok v) :
    ∃ h', l.foldlM (fun h b => b.kEvaluateAdj m h) h = .ok h' ∧ AdjFloats t h' ∧ ∀ v, saved h' v = saved h v ∧
      (h' v).marked = (h v).marked ∧ (h' v).output = (h v).output ∧ (h' v).ckpt = (h v).ckpt := by
  induction l generalizing h with
  | nil => exact ⟨h, rfl, hf, fun v => ⟨rfl, rfl, rfl, rfl⟩⟩
  | cons b l ih =>
    obtain ⟨h₁, a1, a2, a3⟩ := FBlock.kEvaluateAdj_returns (hl b (by simp)) hf (hc b (by simp) h fun v => ⟨rfl, rfl⟩)
    obtain ⟨h₂, b1, b2, b3⟩ := ih (fun b hb => hl b (by simp [hb])) h₁ a2 fun b hb g hg =>
      hc b (by simp [hb]) g fun v => ⟨(hg v).1.trans (a3 v).1, (hg v).2.trans (a3 v).2.1⟩
    refine ⟨h₂, ?_, b2, fun v => ?_⟩
    · rw [List.foldlM_cons, a1]
      exact b1
    · obtain ⟨c1, c2, c3, c4⟩ := a3 v
      obtain ⟨d1, d2, d3, d4⟩ := b3 v
      exact ⟨d1.trans c1, d2.trans c2, d3.trans c3, d4.trans c4⟩

theorem shape_onTape (t : FTape) (v : BV) : OnTape (t.map FBlock.shape) v ↔ OnTape t.blocks v := by
  unfold OnTape FTape.blocks
  simp only [List.mem_map, exists_exists_and_eq_and]
  refine exists_congr fun b => and_congr_right fun _ => ?_
  cases b <;> rfl

theorem mem_relevant_num {h : PHeap} {m : Bool} {l : List BV} {p : BV × Nat} (hp : p ∈ relevant h m l) :
    l[p.2]? = some p.1 ∧ ((h p.1).marked || !m) = true := by
  obtain ⟨h1, h2⟩ := List.mem_filter.1 hp
  exact ⟨List.mem_zipIdx_iff_getElem?.1 h1, h2⟩

/-- **C61 for the derivative.** At a point where every operation that depends on the controls is differentiable,
`compute_gradient` returns for every seed that is not an `int`: no `TypeError`, no division by zero, even if some of the stored values are
`int`s (`S`). Values are not touched. -/
theorem gradient_returns {t : FTape} (wf : WF t.blocks) (J : BV) (cs : List BV) (seed : PyNum) (hseed : seed.kind ≠ .int) (h : PHeap)
    (hmk : ∀ v, (h v).marked = false) {S : BV → Prop} (hS : ∀ v, (saved h v).kind = .int → S v)
    (safe : AdjIntSafe t S (Reach t.blocks (· ∈ cs)))
    (hsmooth : ∀ b ∈ t, (∃ d ∈ b.deps, Reach t.blocks (· ∈ cs) d) →
      b.Smooth (saved (eraseKinds h)) (Reach t.blocks (· ∈ cs))) :
    ∃ r h', kComputeGradient t J cs seed h = .ok (r, h') ∧ AdjFloats t h' ∧
      ∀ v, (h' v).marked = false ∧ (h' v).output = (h v).output ∧ (h' v).ckpt = (h v).ckpt := by
  unfold kComputeGradient
  simp only [shape_nodes]
  set nodes := findRelevantNodes t.blocks cs with hnodes
  set h₀ := markControls cs true (markAll nodes true (Function.update (resetVariables (t.map FBlock.shape) .adjoint h) J
    { resetVariables (t.map FBlock.shape) .adjoint h J with adj := some seed })) with hh₀
  have hval : ∀ v, saved h₀ v = saved h v := fun v => by
    rw [hh₀, saved_markControls, saved_markAll]
    exact (saved_update_adj _ J v (some seed)).trans (saved_resetVariables _ _ _ _)
  have hmark : ∀ v, (h₀ v).marked = true → Reach t.blocks (· ∈ cs) v := by
    intro v hv
    apply (findRelevantNodes_iff wf cs v).1
    by_contra hn
    rw [hh₀, markControls_marked, markAll_apply, if_neg hn] at hv
    by_cases hJ : v = J
    · subst hJ
      rw [Function.update_self, resetVariables_apply] at hv
      split at hv <;> simp [Var.reset, hmk] at hv
    · rw [Function.update_of_ne hJ, resetVariables_apply] at hv
      split at hv <;> simp [Var.reset, hmk] at hv
  have hf : AdjFloats t h₀ := by
    intro v hv a ha
    rw [hh₀, markControls_adj, markAll_adj] at ha
    by_cases hJ : v = J
    · subst hJ
      rw [Function.update_self] at ha
      cases ha
      exact hseed
    · rw [Function.update_of_ne hJ, resetVariables_apply, if_pos ((shape_onTape t v).2 hv)] at ha
      cases ha
  obtain ⟨h₁, e1, e2, e3⟩ := adjoint_sweep_returns (t := t) (m := true) t.reverse (fun b hb => List.mem_reverse.1 hb) h₀ hf (by
    intro b hb g hg p hp l hl
    have hb' := List.mem_reverse.1 hb
    obtain ⟨p1, p2⟩ := mem_relevant_num hp
    have hsv : ∀ v, saved g v = saved h v := fun v => (hg v).1.trans (hval v)
    have hse : saved (eraseKinds g) = saved (eraseKinds h) := by
      funext v; rw [saved_eraseKinds, saved_eraseKinds, hsv]
    refine FBlock.adjNum_returns hb' safe (fun v hv => hS v (by rw [← hsv]; exact hv)) ?_ p.1 p.2 p1 (hmark _ ?_) l hl
    · rw [hse]; exact hsmooth b hb'
    · rw [← (hg _).2]; simpa using p2)
  refine ⟨_, _, Except.bind_ok.2 ⟨h₁, e1, rfl⟩, ?_, fun v => ?_⟩
  · intro v hv a ha
    rw [markAll_adj, markControls_adj] at ha
    exact e2 v hv a ha
  · obtain ⟨_, k2, k3, k4⟩ := e3 v
    refine ⟨?_, ?_, ?_⟩
    · rw [markAll_apply]
      split
      · rfl
      · rename_i hn
        rw [markControls_marked, k2]
        by_contra hm
        exact hn ((findRelevantNodes_iff wf cs v).2 (hmark v (by simpa using hm)))
    · rw [markAll_output, markControls_output, k3, hh₀, markControls_output, markAll_output]
      by_cases hJ : v = J
      · subst hJ; rw [Function.update_self]; rw [resetVariables_apply]; split <;> rfl
      · rw [Function.update_of_ne hJ]; rw [resetVariables_apply]; split <;> rfl
    · rw [markAll_ckpt, markControls_ckpt, k4, hh₀, markControls_ckpt, markAll_ckpt]
      by_cases hJ : v = J
      · subst hJ; rw [Function.update_self]; rw [resetVariables_apply]; split <;> rfl
      · rw [Function.update_of_ne hJ]; rw [resetVariables_apply]; split <;> rfl

/-- **C42, derivatives.** A call with plain numbers that returned, followed by `derivative(adj_input)` with a `float` or `AdjFloat`: if the
operations that depend on the controls are differentiable and `int`s were not given to denominators or bases (`AdjIntSafe`), the derivative
is returned, and it is the Fréchet derivative at the given numbers. -/
theorem plain_numbers_derivative_partial {t : FTape} (wf : WF t.blocks) {S : BV → Prop} (safe : IntSafe t S) {h : PHeap} (ok : KindsOk t S h)
    (hfl : ∀ v, (h v).isControl = false) (hmk : ∀ v, (h v).marked = false)
    (J : BV) (cs : List BV) (hnd : cs.Nodup) (hind : IndependentControls t.blocks cs) (xs : List PyNum) (hargs : ArgsOk t S cs xs)
    (x₀ : Fin cs.length → ℝ) (hx : xs.map PyNum.val = List.ofFn x₀) (hret : (pyEval t cs xs h).2 = none)
    (hadj : AdjIntSafe t S (Reach t.blocks (· ∈ cs)))
    (hsmooth : ∀ b ∈ t, (∃ d ∈ b.deps, Reach t.blocks (· ∈ cs) d) →
      b.Smooth (saved (rfEval t.blocks cs (List.ofFn x₀) (eraseKinds h))) (Reach t.blocks (· ∈ cs)))
    (hon : ∀ c ∈ cs, OnTape t.blocks c ∨ c = J ∨ (h c).adj = none) (scale : ℝ) (adjInput : PyNum) (hin : adjInput.kind ≠ .int) :
    ∃ (grad : Fin cs.length → ℝ) (h' : PHeap), kDerivative t J cs scale adjInput (pyEval t cs xs h).1 = .ok (List.ofFn grad, h') ∧
      HasFDerivAt (fun x => adjInput.val * rfValue t J cs scale (eraseKinds h) x)
        (∑ i, grad i • (ContinuousLinearMap.proj i : (Fin cs.length → ℝ) →L[ℝ] ℝ)) x₀ := by
  obtain ⟨ok', _, _, hspec, _⟩ := plain_numbers_partial wf safe ok cs xs hargs
  have he := hspec hret
  rw [hx] at he
  have hmk' : ∀ v, ((pyEval t cs xs h).1 v).marked = false := by
    intro v
    rw [← eraseKinds_marked, he]
    obtain ⟨o, ho⟩ := rfEval_frame t.blocks cs (List.ofFn x₀) (eraseKinds h) v (fun c _ => hfl c)
    rw [ho]
    simpa using hmk v
  obtain ⟨r, h', h1, _, _⟩ := gradient_returns wf J cs ⟨.adj, adjInput.val * scale⟩ (by simp) (pyEval t cs xs h).1 hmk'
    (fun v hv => ok'.saved_int hv) hadj (by rw [he]; exact hsmooth)
  have h2 := gradient_returned t J cs _ _ _ _ h1
  obtain ⟨grad, g1, g2⟩ := gradient_exact_adjfloat t wf J cs hnd (eraseKinds h) hfl hind scale adjInput.val x₀ hsmooth
    (fun c hc => (hon c hc).imp_right (Or.imp_right fun k => by simp [k])) _ _ (by simp only [rfCall]; rw [if_neg (by simp)])
  refine ⟨grad, h', ?_, g2⟩
  unfold kDerivative
  rw [if_neg hin, h1]
  congr 2
  have := congrArg Prod.fst h2
  rw [he] at this
  exact this.trans g1

end Pyadjoint
