import Verif.Props.TaylorTape
import Mathlib.Analysis.Calculus.LHopital

/-!
# The verdict of the Taylor test in small directions (C34)

The documentation promises a verdict for every functional, not only for quadratic ones: second-order remainders "decrease by a factor
of 4" if the derivative is right (rate 2) and the first-order ones are halved (rate 1) if it is not.  Here: the result of the
test tends to 2, or to 1, when the direction is made small.
-/

namespace Pyadjoint

open Real Filter Topology

section limit

variable {C S : Type*} [AddCommGroup C] [Module ℝ C]

theorem line_smul (ms hs : List C) (s e : ℝ) : line ms (hs.map (s • ·)) e = line ms hs (e * s) := by
  unfold line
  induction ms generalizing hs with
  | nil => rfl
  | cons m ms ih =>
    cases hs with
    | nil => rfl
    | cons h hs => simp only [List.map_cons, List.zipWith_cons_cons, ih, mul_smul]

theorem line_zero (ms hs : List C) (hl : hs.length = ms.length) : line ms hs 0 = ms := by
  unfold line
  induction ms generalizing hs with
  | nil => rfl
  | cons m ms ih =>
    cases hs with
    | nil => simp at hl
    | cons h hs =>
      rw [List.zipWith_cons_cons, ih hs (by simpa using hl), zero_smul, add_zero]

/-- **C34, any order.** Let the functional's remainder along `h` after subtracting `e d₀` and `e² H₀ / 2` be `c e^k + o(e^k)` with
`c ≠ 0`.  Then the result of `taylor_test(J, m, s h)` given the derivatives `s d₀` and `s² H₀` along `s h` tends to `k`
for `s → 0`: it is as close to `k` as wanted for all small enough directions. -/
theorem taylor_test_limit {dot : C → C → ℝ} {J : TaylorObj C S} {Inv : S → Prop} {F : List C → ℝ} (m h : Arg C)
    (hl : h.elems.length = m.elems.length) (hJ : Evaluates J Inv m.elems.length F) (d₀ H₀ c : ℝ) (hc : c ≠ 0) (k : Nat)
    (hlim : Tendsto (fun e : ℝ => (F (line m.elems h.elems e) - F m.elems - e * d₀ - 0.5 * e ^ 2 * H₀) / e ^ k) (𝓝[≠] 0) (𝓝 c))
    (tol : ℝ) (htol : 0 < tol) :
    ∃ s₀ > 0, ∀ s : ℝ, s ≠ 0 → |s| < s₀ → ∀ (h' : Arg C), h'.elems = h.elems.map (s • ·) → ∀ (dJdm : Option ℝ) (st : S), Inv st →
      (∀ y s₁, J.call m st = .ok (y, s₁) →
        ∃ s₂, directional dot J m.elems.length h'.elems dJdm s₁ = .ok (s * d₀, s₂) ∧ Inv s₂) →
      ∃ (x : ℝ) (s' : S), taylorTest dot J m h' dJdm (s ^ 2 * H₀) st = .ok ((x : EReal), s') ∧ |x - k| < tol := by
  have hcp := abs_pos.2 hc
  -- the ratio of the bounds tends to 1 with their distance
  have hlog : Tendsto (fun δ : ℝ => logb 2 ((|c| + δ) / (|c| - δ))) (𝓝 0) (𝓝 0) := by
    have h1 : ContinuousAt (fun δ : ℝ => (|c| + δ) / (|c| - δ)) 0 := by
      apply ContinuousAt.div
      · exact continuousAt_const.add continuousAt_id
      · exact continuousAt_const.sub continuousAt_id
      · simpa using hc
    have h2 : ContinuousAt (fun δ : ℝ => logb 2 ((|c| + δ) / (|c| - δ))) 0 := by
      unfold logb
      refine ContinuousAt.div_const ?_ _
      refine h1.log ?_
      simp [hc]
    have h3 := h2.tendsto
    simpa [hc] using h3
  obtain ⟨δ₀, hδ₀, hball⟩ := Metric.tendsto_nhds_nhds.1 hlog tol htol
  obtain ⟨δ, hδ, hδ1, hδ2⟩ : ∃ δ > 0, δ < δ₀ ∧ δ < |c| := by
    refine ⟨min δ₀ |c| / 2, by positivity, ?_, ?_⟩
    · have := min_le_left δ₀ |c|
      have : 0 < min δ₀ |c| := by positivity
      linarith
    · have := min_le_right δ₀ |c|
      have : 0 < min δ₀ |c| := by positivity
      linarith
  have hlogδ : logb 2 ((|c| + δ) / (|c| - δ)) < tol := by
    have := hball (x := δ) (by simpa [abs_of_pos hδ] using hδ1)
    rw [Real.dist_eq, sub_zero] at this
    exact (le_abs_self _).trans_lt this
  obtain ⟨r, hr, hr2⟩ := Metric.tendsto_nhdsWithin_nhds.1 hlim δ hδ
  refine ⟨r, hr, ?_⟩
  intro s hs hsr h' hh' dJdm st hst hd
  have hl' : h'.elems.length = m.elems.length := by rw [hh']; simpa using hl
  have he1 : ∀ i, eps i ≤ 1 := by
    intro i
    unfold eps
    rw [div_le_one (by positivity)]
    exact le_trans (by norm_num) (one_le_pow₀ (by norm_num : (1 : ℝ) ≤ 2))
  have hbound : ∀ i, (|c| - δ) * |s| ^ k * eps i ^ k ≤ remainder F m.elems h'.elems (s * d₀) (s ^ 2 * H₀) (eps i) ∧
      remainder F m.elems h'.elems (s * d₀) (s ^ 2 * H₀) (eps i) ≤ (|c| + δ) * |s| ^ k * eps i ^ k := by
    intro i
    have hne : eps i * s ≠ 0 := mul_ne_zero (eps_pos i).ne' hs
    have hlt : |eps i * s| < r := by
      rw [abs_mul, abs_of_pos (eps_pos i)]
      calc eps i * |s| ≤ 1 * |s| := mul_le_mul_of_nonneg_right (he1 i) (abs_nonneg s)
        _ < r := by rwa [one_mul]
    have key := hr2 (x := eps i * s) hne (by simpa [Real.dist_eq] using hlt)
    rw [Real.dist_eq] at key
    have hp : 0 < |eps i * s| ^ k := pow_pos (abs_pos.2 hne) k
    have hrem : remainder F m.elems h'.elems (s * d₀) (s ^ 2 * H₀) (eps i) =
        |(F (line m.elems h.elems (eps i * s)) - F m.elems - eps i * s * d₀ - 0.5 * (eps i * s) ^ 2 * H₀) / (eps i * s) ^ k| *
          |eps i * s| ^ k := by
      rw [abs_div, abs_pow, div_mul_cancel₀ _ hp.ne']
      unfold remainder
      rw [hh', line_smul]
      congr 1
      ring
    have hw : |eps i * s| ^ k = |s| ^ k * eps i ^ k := by
      rw [abs_mul, abs_of_pos (eps_pos i), mul_pow, mul_comm]
    rw [hrem, mul_assoc (|c| - δ), mul_assoc (|c| + δ), ← hw]
    generalize (F (line m.elems h.elems (eps i * s)) - F m.elems - eps i * s * d₀ - 0.5 * (eps i * s) ^ 2 * H₀) / (eps i * s) ^ k = q at key
    have h1 : |c| - |q| ≤ |q - c| := by rw [abs_sub_comm]; exact abs_sub_abs_le_abs_sub c q
    have h2 : |q| - |c| ≤ |q - c| := abs_sub_abs_le_abs_sub q c
    constructor
    · exact mul_le_mul_of_nonneg_right (by linarith) hp.le
    · exact mul_le_mul_of_nonneg_right (by linarith) hp.le
  have hsp : 0 < |s| ^ k := pow_pos (abs_pos.2 hs) k
  obtain ⟨x, s', hok, -, hx⟩ := taylor_test_bounds (dot := dot) m h' hl' hJ dJdm (s ^ 2 * H₀) (s * d₀) st hst hd
    ((|c| - δ) * |s| ^ k) ((|c| + δ) * |s| ^ k) (mul_pos (by linarith) hsp) k (fun i _ => hbound i)
  refine ⟨x, s', hok, lt_of_le_of_lt hx ?_⟩
  rw [mul_div_mul_right _ _ hsp.ne']
  exact hlogδ

end limit

/-! ## Remainders of twice differentiable functions -/

/-- Second-order remainder: `(φ e - φ 0 - e φ' 0) / e² → φ'' 0 / 2`. -/
theorem tendsto_second_remainder {φ φ' : ℝ → ℝ} {a : ℝ} (h1 : ∀ᶠ e in 𝓝 0, HasDerivAt φ (φ' e) e) (h2 : HasDerivAt φ' a 0) :
    Tendsto (fun e : ℝ => (φ e - φ 0 - e * φ' 0 - 0.5 * e ^ 2 * 0) / e ^ 2) (𝓝[≠] 0) (𝓝 (a / 2)) := by
  have hφ0 : ContinuousAt φ 0 := h1.self_of_nhds.continuousAt
  refine HasDerivAt.lhopital_zero_nhdsNE (f' := fun e => φ' e - φ' 0) (g' := fun e => 2 * e) ?_ ?_ ?_ ?_ ?_ ?_
  · refine (h1.filter_mono nhdsWithin_le_nhds).mono fun e he => ?_
    have e1 : HasDerivAt (fun e : ℝ => e * φ' 0) (1 * φ' 0) e := (hasDerivAt_id e).mul_const _
    have := (he.sub_const (φ 0)).sub e1
    rw [one_mul] at this
    refine this.congr_of_eventuallyEq (Eventually.of_forall fun x => ?_)
    show φ x - φ 0 - x * φ' 0 - 0.5 * x ^ 2 * 0 = φ x - φ 0 - x * φ' 0
    rw [mul_zero, sub_zero]
  · refine Eventually.of_forall fun e => ?_
    simpa using hasDerivAt_pow 2 e
  · filter_upwards [self_mem_nhdsWithin] with e he
    exact mul_ne_zero two_ne_zero he
  · have : ContinuousAt (fun e : ℝ => φ e - φ 0 - e * φ' 0 - 0.5 * e ^ 2 * 0) 0 := by fun_prop
    have h3 := this.tendsto
    rw [show φ 0 - φ 0 - 0 * φ' 0 - 0.5 * (0 : ℝ) ^ 2 * 0 = 0 by ring] at h3
    exact h3.mono_left nhdsWithin_le_nhds
  · have : ContinuousAt (fun e : ℝ => e ^ 2) 0 := by fun_prop
    have h3 := this.tendsto
    simp only [ne_eq, OfNat.ofNat_ne_zero, not_false_eq_true, zero_pow] at h3
    exact h3.mono_left nhdsWithin_le_nhds
  · have h3 := (hasDerivAt_iff_tendsto_slope.1 h2).div_const 2
    refine h3.congr' ?_
    filter_upwards [self_mem_nhdsWithin] with e he
    have he' : e ≠ 0 := he
    rw [slope_def_field]
    simp only [sub_zero]
    field_simp

/-- First-order remainder with the derivative `d`: `(φ e - φ 0 - e d) / e → φ' 0 - d`. -/
theorem tendsto_first_remainder {φ : ℝ → ℝ} {g : ℝ} (h1 : HasDerivAt φ g 0) (d : ℝ) :
    Tendsto (fun e : ℝ => (φ e - φ 0 - e * d - 0.5 * e ^ 2 * 0) / e ^ 1) (𝓝[≠] 0) (𝓝 (g - d)) := by
  have h3 := (hasDerivAt_iff_tendsto_slope.1 h1).sub_const d
  refine h3.congr' ?_
  filter_upwards [self_mem_nhdsWithin] with e he
  have he' : e ≠ 0 := he
  rw [slope_def_field]
  simp only [sub_zero, mul_zero, pow_one]
  field_simp

/-! ## Recorded programs -/

/-- **C34, right derivatives pass.** For every recorded program that is differentiable operation by operation at `m` and has a nonzero
second derivative along `h` there: for all small enough multiples of `h`, `taylor_test(rf, m, s h)` returns a number as close to 2 as
wanted. -/
theorem taylor_test_tends_to_two (rf : RF ℝ) (hcomp : rf.components = none) (t : FTape) (wf : WF t.blocks)
    (hnd : rf.controls.elems.Nodup) (hne : rf.controls.elems ≠ []) (hind : IndependentControls t.blocks rf.controls.elems)
    (hon : ∀ c ∈ rf.controls.elems, OnTape t.blocks c) (h₀ : FHeap) (h0 : ∀ v, (h₀ v).isControl = false)
    (hmk : ∀ v, (h₀ v).marked = false) (m h : Arg ℝ) (hm : m.elems.length = rf.controls.elems.length)
    (hl : h.elems.length = m.elems.length)
    (hsmooth : ∀ b ∈ t, (∃ d ∈ b.deps, Reach t.blocks (· ∈ rf.controls.elems) d) →
      b.Smooth (saved (rfEval t.blocks rf.controls.elems m.elems h₀)) (Reach t.blocks (· ∈ rf.controls.elems)))
    (φ' : ℝ → ℝ) (a : ℝ) (ha : a ≠ 0)
    (hφ : ∀ᶠ e in 𝓝 0, HasDerivAt (fun e : ℝ => rf.function t h₀ (line m.elems h.elems e)) (φ' e) e) (hφ' : HasDerivAt φ' a 0)
    (tol : ℝ) (htol : 0 < tol) :
    ∃ s₀ > 0, ∀ s : ℝ, s ≠ 0 → |s| < s₀ → ∀ sh : Arg ℝ, sh.elems = h.elems.map (s * ·) →
      ∃ (x : ℝ) (h' : FHeap), taylorTest (· * ·) (rf.taylor t) m sh none 0 h₀ = .ok ((x : EReal), h') ∧ |x - 2| < tol := by
  have hJ := taylor_evaluates rf t wf hnd h₀ h0
  rw [← hm] at hJ
  have hz : rf.function t h₀ m.elems = (fun e : ℝ => rf.function t h₀ (line m.elems h.elems e)) 0 := by
    simp only [line_zero _ _ hl]
  obtain ⟨s₀, hs₀, key⟩ := taylor_test_limit (dot := (· * ·)) m h hl hJ (φ' 0) 0 (a / 2) (by simpa using ha) 2
    (by rw [hz]; exact tendsto_second_remainder hφ hφ') tol htol
  refine ⟨s₀, hs₀, fun s hs hlt sh hsh => ?_⟩
  have hl' : sh.elems.length = m.elems.length := by rw [hsh]; simpa using hl
  obtain ⟨d, hd, hdir⟩ := taylor_directional rf hcomp t wf hnd hne hind hon h₀ h0 hmk m sh hm hl' hsmooth
  have hds : d = s * φ' 0 := by
    refine hd.unique ?_
    have e1 : HasDerivAt (fun e : ℝ => e * s) (1 * s) 0 := (hasDerivAt_id (0 : ℝ)).mul_const s
    have e2 : HasDerivAt (fun e : ℝ => rf.function t h₀ (line m.elems h.elems e)) (φ' 0) (0 * s) := by
      rw [zero_mul]; exact hφ.self_of_nhds
    have e3 := e2.comp (0 : ℝ) e1
    rw [one_mul, mul_comm] at e3
    refine e3.congr_of_eventuallyEq (Eventually.of_forall fun e => ?_)
    show _ = rf.function t h₀ (line m.elems h.elems (e * s))
    rw [← line_smul, hsh]
    rfl
  obtain ⟨x, h', hok, hx⟩ := key s hs hlt sh hsh none h₀ ⟨h0, hmk, fun _ => rfl, fun _ _ => rfl⟩ (by rw [← hds]; exact hdir)
  exact ⟨x, h', by simpa using hok, by simpa using hx⟩

/-- **C34, wrong derivatives fail.** For every recorded program that is differentiable at `m` along `h` and every number `d` other than
its derivative along `h`: for all small enough multiples of `h`, `taylor_test(rf, m, s h, dJdm=s d)` returns a number as close
to 1 as wanted (with `d = 0`: the documented check of the first-order remainder). -/
theorem taylor_test_tends_to_one (rf : RF ℝ) (t : FTape) (wf : WF t.blocks)
    (hnd : rf.controls.elems.Nodup) (h₀ : FHeap) (h0 : ∀ v, (h₀ v).isControl = false)
    (hmk : ∀ v, (h₀ v).marked = false) (m h : Arg ℝ) (hm : m.elems.length = rf.controls.elems.length)
    (hl : h.elems.length = m.elems.length) (g d : ℝ) (hne : d ≠ g)
    (hφ : HasDerivAt (fun e : ℝ => rf.function t h₀ (line m.elems h.elems e)) g 0) (tol : ℝ) (htol : 0 < tol) :
    ∃ s₀ > 0, ∀ s : ℝ, s ≠ 0 → |s| < s₀ → ∀ sh : Arg ℝ, sh.elems = h.elems.map (s * ·) →
      ∃ (x : ℝ) (h' : FHeap), taylorTest (· * ·) (rf.taylor t) m sh (some (s * d)) 0 h₀ = .ok ((x : EReal), h') ∧
        |x - 1| < tol := by
  have hJ := taylor_evaluates rf t wf hnd h₀ h0
  rw [← hm] at hJ
  have hz : rf.function t h₀ m.elems = (fun e : ℝ => rf.function t h₀ (line m.elems h.elems e)) 0 := by
    simp only [line_zero _ _ hl]
  obtain ⟨s₀, hs₀, key⟩ := taylor_test_limit (dot := (· * ·)) m h hl hJ d 0 (g - d) (sub_ne_zero.2 hne.symm) 1
    (by rw [hz]; exact tendsto_first_remainder hφ d) tol htol
  refine ⟨s₀, hs₀, fun s hs hlt sh hsh => ?_⟩
  have hb : Between t rf.controls.elems h₀ h₀ := ⟨h0, hmk, fun _ => rfl, fun _ _ => rfl⟩
  obtain ⟨x, h', hok, hx⟩ := key s hs hlt sh hsh (some (s * d)) h₀ hb (fun y s₁ hy => by
    obtain ⟨s₂, e2, hi⟩ := hJ m h₀ hb rfl
    rw [e2] at hy
    cases hy
    exact ⟨_, rfl, hi⟩)
  exact ⟨x, h', by simpa using hok, by simpa using hx⟩

/-! ### Example: `J = exp x` recorded, which is not quadratic -/

/-- The hypotheses of both theorems hold for the tape of `J = exp x` at every point `x`: with the derivative the test computes the
results tend to 2, with `dJdm=0` to 1. -/
example (x tol : ℝ) (htol : 0 < tol) :
    (∃ s₀ > 0, ∀ s : ℝ, s ≠ 0 → |s| < s₀ → ∃ (r : ℝ) (h' : FHeap),
      taylorTest (· * ·) (expRF.taylor expTape) (.single x) (.single (s * 1)) none 0 unitHeap = .ok ((r : EReal), h') ∧ |r - 2| < tol) ∧
    ∃ s₀ > 0, ∀ s : ℝ, s ≠ 0 → |s| < s₀ → ∃ (r : ℝ) (h' : FHeap),
      taylorTest (· * ·) (expRF.taylor expTape) (.single x) (.single (s * 1)) (some (s * 0)) 0 unitHeap = .ok ((r : EReal), h') ∧
        |r - 1| < tol := by
  have hfun : (fun e : ℝ => expRF.function expTape unitHeap (line (Arg.single x).elems (Arg.single (1 : ℝ)).elems e)) =
      fun e => exp (x + e) := by
    funext e
    show exp (x + e * 1) * 1 = _
    rw [mul_one, mul_one]
  have hder : ∀ e : ℝ, HasDerivAt (fun e : ℝ => exp (x + e)) (exp (x + e)) e := by
    intro e
    have := ((hasDerivAt_id e).const_add x).exp
    simpa using this
  have hon : ∀ c ∈ expRF.controls.elems, OnTape expTape.blocks c := by
    intro c hc
    have : c = 0 := by simpa [expRF, Arg.elems] using hc
    subst this
    exact ⟨_, List.mem_cons_self, Or.inl (by exact List.mem_cons_self)⟩
  have hind : IndependentControls expTape.blocks [0] := by
    intro c hc b hb ho
    simp only [FTape.blocks, expTape, List.map_cons, List.map_nil, List.mem_cons, List.not_mem_nil, or_false] at hb hc
    subst hb hc
    simp [FBlock.toBlock] at ho
  constructor
  · obtain ⟨s₀, hs₀, key⟩ := taylor_test_tends_to_two expRF rfl expTape expTape_wf (by simp [expRF, Arg.elems]) (by simp [expRF, Arg.elems])
      hind hon unitHeap (fun _ => rfl) (fun _ => rfl) (.single x) (.single 1) rfl rfl
      (by
        intro b hb _
        simp only [expTape, List.mem_cons, List.not_mem_nil, or_false] at hb
        subst hb
        trivial)
      (fun e => exp (x + e)) (exp x) (exp_pos x).ne' (by rw [hfun]; exact Eventually.of_forall hder)
      (by have := hder 0; rwa [add_zero] at this) tol htol
    exact ⟨s₀, hs₀, fun s hs hlt => key s hs hlt (.single (s * 1)) rfl⟩
  · obtain ⟨s₀, hs₀, key⟩ := taylor_test_tends_to_one expRF expTape expTape_wf (by simp [expRF, Arg.elems])
      unitHeap (fun _ => rfl) (fun _ => rfl) (.single x) (.single 1) rfl rfl (exp x) 0 (exp_pos x).ne
      (by rw [hfun]; have := hder 0; rwa [add_zero] at this) tol htol
    exact ⟨s₀, hs₀, fun s hs hlt => key s hs hlt (.single (s * 1)) rfl⟩

end Pyadjoint
